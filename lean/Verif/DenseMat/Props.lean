import Verif.DenseMat.Lemmas
import Mathlib.Tactic.NormNum
import Mathlib.Algebra.Order.BigOperators.Group.Finset

/-!
# C58: operations on dense matrices compute the documented result
-/

set_option linter.unusedSectionVars false
set_option linter.unusedSimpArgs false

namespace Hiop.DenseMat

open Finset

variable {K : Type*} [Field K] [LinearOrder K] [IsStrictOrderedRing K]
variable {A B W X : DMat K} {m n k : ℕ} {f g w x : ℕ → ℕ → K}

/-! ## Products with vectors -/

/-- **C58, `timesVec`.** `y = beta*y + alpha*A*x`, also for empty dimensions. -/
theorem C58_timesVec (hA : Is A m n f) (beta alpha : K) (y v : Arr K) (hy : y.size = m)
    (hv : v.size = n) :
    ∃ y', timesVec A beta y alpha v = some y' ∧ y'.size = m ∧
      ∀ i < m, y'.get i = beta * y.get i + alpha * ∑ j ∈ range n, f i j * v.get j := by
  have hs := hA.size
  have hc := hA.cap_le
  unfold timesVec
  rw [hA.hm, hA.hn]
  by_cases h : m ≠ 0 ∧ n ≠ 0
  · rw [if_pos h]
    unfold dgemv
    have hf : fits n m n A.arr.size := by
      right; right
      rw [hs]
      calc (m - 1) * n + n = m * n := by
            obtain ⟨q, rfl⟩ := Nat.exists_eq_succ_of_ne_zero h.1
            simp [Nat.succ_mul]
        _ ≤ A.cap * n := Nat.mul_le_mul_right _ hc
    rw [if_neg (by omega), if_neg (by omega), if_neg (by simpa using hf), if_pos rfl,
      if_neg (by omega)]
    refine ⟨_, rfl, hy, fun i hi => ?_⟩
    simp only [hi, if_true]
    rw [add_comm]
    congr 2
    refine sum_congr rfl fun j hj => ?_
    rw [Nat.add_comm, hA.get hi (mem_range.1 hj)]
  · rw [if_neg h]
    by_cases hm : m = 0
    · subst hm
      exact ⟨y, by simp, hy, fun i hi => by omega⟩
    · obtain rfl : n = 0 := by omega
      rw [if_pos hm]
      by_cases hb : beta = 1
      · subst hb
        exact ⟨y, by simp, hy, fun i hi => by simp⟩
      · rw [if_pos hb]
        unfold dscal
        rw [if_neg hm, if_neg (by omega)]
        refine ⟨_, rfl, hy, fun i hi => ?_⟩
        simp [hi]

/-- **C58, `transTimesVec`.** `y = beta*y + alpha*A'*x`, also for empty dimensions. -/
theorem C58_transTimesVec (hA : Is A m n f) (beta alpha : K) (y v : Arr K) (hy : y.size = n)
    (hv : v.size = m) :
    ∃ y', transTimesVec A beta y alpha v = some y' ∧ y'.size = n ∧
      ∀ j < n, y'.get j = beta * y.get j + alpha * ∑ i ∈ range m, f i j * v.get i := by
  have hs := hA.size
  have hc := hA.cap_le
  unfold transTimesVec
  rw [hA.hm, hA.hn]
  by_cases h : m ≠ 0 ∧ n ≠ 0
  · rw [if_pos h]
    unfold dgemv
    have hf : fits n m n A.arr.size := by
      right; right
      rw [hs]
      calc (m - 1) * n + n = m * n := by
            obtain ⟨q, rfl⟩ := Nat.exists_eq_succ_of_ne_zero h.1
            simp [Nat.succ_mul]
        _ ≤ A.cap * n := Nat.mul_le_mul_right _ hc
    rw [if_neg (by omega), if_neg (by omega), if_neg (by simpa using hf), if_neg (by simp),
      if_neg (by omega)]
    refine ⟨_, rfl, hy, fun j hj => ?_⟩
    simp only [hj, if_true]
    rw [add_comm]
    congr 2
    refine sum_congr rfl fun i hi => ?_
    rw [Nat.add_comm, hA.get (mem_range.1 hi) hj]
  · rw [if_neg h]
    by_cases hn : n = 0
    · subst hn
      exact ⟨y, by simp, hy, fun i hi => by omega⟩
    · obtain rfl : m = 0 := by omega
      rw [if_pos hn]
      unfold dscal
      rw [if_neg hn, if_neg (by omega)]
      refine ⟨_, rfl, hy, fun i hi => ?_⟩
      simp [hi]

/-! ## Products of matrices -/

theorem fits_of {r c size cap : ℕ} (h : c ≤ cap) (hs : size = cap * r) : fits r c r size := by
  unfold fits
  by_cases hc : c = 0
  · exact Or.inr (Or.inl hc)
  · right; right
    obtain ⟨q, rfl⟩ := Nat.exists_eq_succ_of_ne_zero hc
    have := Nat.mul_le_mul_right r h
    rw [Nat.succ_mul] at this
    simp only [Nat.succ_sub_one]
    omega

theorem timesMatLocal_spec (hA : Is A m n f) (hX : Is X n k x) (hW : Is W m k w) (beta alpha : K)
    (hn : n ≠ 0) (hk : k ≠ 0) :
    ∃ W', timesMatLocal A beta W alpha X = some W' ∧ W'.cap = W.cap ∧
      Is W' m k fun i j => beta * w i j + alpha * ∑ l ∈ range n, f i l * x l j := by
  unfold timesMatLocal dgemm
  rw [hA.hm, hA.hn, hX.hm, hX.hn]
  simp only [Bool.false_eq_true, if_false]
  rw [if_neg (by omega)]
  by_cases hm : m = 0
  · subst hm
    rw [if_pos (Or.inr rfl)]
    exact ⟨_, rfl, rfl, is_put hW _ fun i hi => by omega⟩
  · rw [if_neg (by omega), if_neg (by
      have h1 := fits_of hX.cap_le hX.size
      have h2 := fits_of hA.cap_le hA.size
      have h3 := fits_of hW.cap_le hW.size
      simp only [h1, h2, h3, not_true, or_self, not_false_iff])]
    refine ⟨_, rfl, rfl, is_put hW _ fun i hi j hj => ?_⟩
    simp only [pos_mod hj, pos_div hj, hi, hj, and_self, if_true, opAt, Bool.false_eq_true, if_false]
    rw [hW.get hi hj, add_comm]
    congr 2
    refine sum_congr rfl fun l hl => ?_
    have hl' := mem_range.1 hl
    rw [Nat.add_comm j, hX.get hl' hj, Nat.add_comm l, hA.get hi hl', mul_comm]

/-- **C58, `timesMat` (partial: a nonempty inner dimension and, without MPI, nonempty result rows).**
`W = beta*W + alpha*A*X`. Missing: `C58_timesMat_empty_false`. -/
theorem C58_timesMat_partial (mpi : Bool) (hA : Is A m n f) (hX : Is X n k x) (hW : Is W m k w)
    (beta alpha : K) (hn : n ≠ 0) (hk : mpi = false → k ≠ 0) :
    ∃ W', timesMat mpi A beta W alpha X = some W' ∧ W'.cap = W.cap ∧
      Is W' m k fun i j => beta * w i j + alpha * ∑ l ∈ range n, f i l * x l j := by
  unfold timesMat
  by_cases hmpi : mpi = true
  · rw [if_pos hmpi, hA.hm, hA.hn, hX.hm, hX.hn, hW.hm, hW.hn, if_pos ⟨rfl, rfl, rfl⟩]
    by_cases h : m = 0 ∨ k = 0
    · rw [if_pos (by tauto)]
      refine ⟨W, rfl, rfl, hW.ok, hW.hm, hW.hn, fun i hi j hj => ?_⟩
      omega
    · rw [if_neg (by tauto)]
      exact timesMatLocal_spec hA hX hW beta alpha hn (by tauto)
  · rw [if_neg hmpi]
    exact timesMatLocal_spec hA hX hW beta alpha hn (hk (by simpa using hmpi))

/-- **C58 refuted for `timesMat` with an empty inner dimension.** The result should be `beta*W`; the
code built with MPI returns `W` unchanged, without MPI it ends in an error of the BLAS routine. -/
theorem C58_timesMat_empty_false (hA : Is A m 0 f) (hX : Is X 0 k x) (hW : Is W m k w)
    (beta alpha : K) :
    timesMat true A beta W alpha X = some W ∧ timesMat false A beta W alpha X = none := by
  constructor
  · unfold timesMat
    rw [if_pos rfl, hA.hm, hA.hn, hX.hm, hX.hn, hW.hm, hW.hn, if_pos ⟨rfl, rfl, rfl⟩, if_pos (by tauto)]
  · unfold timesMat timesMatLocal dgemm
    rw [hA.hm, hA.hn, hX.hm, hX.hn]
    simp

/-- **C58, `transTimesMat` (partial: nonempty rows of the result).** `W = beta*W + alpha*A'*X`, also
when the matrices have no rows. Missing: `C58_transTimesMat_empty_false`. -/
theorem C58_transTimesMat_partial (hA : Is A m n f) (hX : Is X m k x) (hW : Is W n k w)
    (beta alpha : K) (hk : k ≠ 0) :
    ∃ W', transTimesMat A beta W alpha X = some W' ∧ W'.cap = W.cap ∧
      Is W' n k fun i j => beta * w i j + alpha * ∑ l ∈ range m, f l i * x l j := by
  unfold transTimesMat
  rw [hA.hm, hA.hn, hX.hm, hX.hn, hW.hm, hW.hn, if_pos ⟨rfl, rfl, rfl⟩]
  by_cases hn : n = 0
  · subst hn
    rw [if_pos rfl]
    exact ⟨W, rfl, rfl, hW.ok, hW.hm, hW.hn, fun i hi => by omega⟩
  · rw [if_neg hn]
    unfold dgemm
    simp only [Bool.false_eq_true, if_false, if_true]
    rw [if_neg (by omega), if_neg (by omega), if_neg (by
      have h1 := fits_of hX.cap_le hX.size
      have h2 := fits_of hA.cap_le hA.size
      have h3 := fits_of hW.cap_le hW.size
      simp only [h1, h2, h3, not_true, or_self, not_false_iff])]
    refine ⟨_, rfl, rfl, is_put hW _ fun i hi j hj => ?_⟩
    simp only [pos_mod hj, pos_div hj, hi, hj, and_self, if_true, opAt, Bool.false_eq_true, if_false]
    rw [hW.get hi hj, add_comm]
    congr 2
    refine sum_congr rfl fun l hl => ?_
    have hl' := mem_range.1 hl
    rw [Nat.add_comm j, hX.get hl' hj, Nat.add_comm i, hA.get hl' hi, mul_comm]

/-- **C58 refuted for `transTimesMat` without columns.** An empty result is computed with an error of
the BLAS routine. -/
theorem C58_transTimesMat_empty_false (hA : Is A m n f) (hX : Is X m 0 x) (hW : Is W n 0 w)
    (beta alpha : K) (hn : n ≠ 0) : transTimesMat A beta W alpha X = none := by
  unfold transTimesMat dgemm
  rw [hA.hm, hA.hn, hX.hm, hX.hn, hW.hm, hW.hn]
  simp [hn]

/-- **C58, `timesMatTrans`.** `W = beta*W + alpha*A*X'`, also for empty dimensions. -/
theorem C58_timesMatTrans (hA : Is A m n f) (hX : Is X k n x) (hW : Is W m k w) (beta alpha : K) :
    ∃ W', timesMatTrans A beta W alpha X = some W' ∧ W'.cap = W.cap ∧
      Is W' m k fun i j => beta * w i j + alpha * ∑ l ∈ range n, f i l * x j l := by
  unfold timesMatTrans
  rw [hA.hm, hA.hn, hX.hm, hW.hm, hW.hn]
  by_cases h : m = 0 ∨ k = 0
  · rw [if_pos h]
    exact ⟨W, rfl, rfl, hW.ok, hW.hm, hW.hn, fun i hi j hj => by omega⟩
  · rw [if_neg h]
    by_cases hn : n = 0
    · subst hn
      rw [if_pos rfl]
      by_cases hb : beta = 1
      · subst hb
        rw [if_neg (by simp)]
        exact ⟨W, rfl, rfl, hW.ok, hW.hm, hW.hn, fun i hi j hj => by simp [hW.val i hi j hj]⟩
      · rw [if_pos hb]
        unfold dscal
        rw [if_neg (by simpa using h), if_neg (by have := hW.mn_le; omega)]
        refine ⟨_, rfl, rfl, is_put hW _ fun i hi j hj => ?_⟩
        have := pos_lt_size hi hj
        simp only [Nat.zero_le, true_and, zero_add, this, if_true]
        rw [hW.get hi hj]
        simp
    · rw [if_neg hn]
      unfold dgemm
      simp only [Bool.false_eq_true, if_false, if_true]
      rw [if_neg (by omega), if_neg (by omega), if_neg (by
        have h1 := fits_of hX.cap_le hX.size
        have h2 := fits_of hA.cap_le hA.size
        have h3 := fits_of hW.cap_le hW.size
        simp only [h1, h2, h3, not_true, or_self, not_false_iff])]
      refine ⟨_, rfl, rfl, is_put hW _ fun i hi j hj => ?_⟩
      simp only [pos_mod hj, pos_div hj, hi, hj, and_self, if_true, opAt, Bool.false_eq_true,
        if_false]
      rw [hW.get hi hj, add_comm]
      congr 2
      refine sum_congr rfl fun l hl => ?_
      have hl' := mem_range.1 hl
      rw [Nat.add_comm l, hX.get hj hl', Nat.add_comm l, hA.get hi hl', mul_comm]

/-! ## Diagonals -/

theorem addDiagAt_some (hA : Is A m n f) {a : Arr K} (ha : a.size = A.arr.size) {i : ℕ} (hi : i < m)
    (hj : i < n) (v : K) :
    ∃ a', addDiagAt A a i v = some a' ∧ a'.size = A.arr.size ∧
      ∀ q, a'.get q = a.get q + if q = i * n + i then v else 0 := by
  have h : i * n + i < a.size := by rw [ha, hA.size]; exact pos_lt_cap hi hj hA.cap_le
  obtain ⟨a', h1, h2, h3⟩ := add_some h v
  exact ⟨a', by simp only [addDiagAt, hA.row hi, h1], by rw [h2, ha], h3⟩

/-- The loop over a part of the diagonal. -/
theorem diag_loop (hA : Is A m n f) {body : ℕ → Arr K → Option (Arr K)} {cnt s0 : ℕ} (v : ℕ → K)
    (hm : s0 + cnt ≤ m) (hn : s0 + cnt ≤ n)
    (hb : ∀ i < cnt, ∀ t : Arr K, body i t = addDiagAt A t (s0 + i) (v i)) :
    ∃ A', (loop body cnt A.arr).map A.put = some A' ∧ A'.cap = A.cap ∧
      Is A' m n fun i j => f i j + if i = j ∧ s0 ≤ i ∧ i < s0 + cnt then v (i - s0) else 0 := by
  obtain ⟨t, h1, h2, h3⟩ := loop_accum (body := body) (k := cnt) (s := A.arr)
    (g := fun i q => if q = (s0 + i) * n + (s0 + i) then v i else 0) (by
      intro i hi t ht
      rw [hb i hi]
      exact addDiagAt_some hA ht (by omega) (by omega) _)
  refine ⟨A.put t, by rw [h1]; rfl, rfl, is_put hA _ fun i hi j hj => ?_⟩
  rw [h3, hA.get hi hj]
  congr 1
  by_cases h : i = j ∧ s0 ≤ i ∧ i < s0 + cnt
  · rw [if_pos h, sum_eq_single (i - s0)]
    · rw [if_pos]
      rw [pos_inj hj (by omega)]
      omega
    · intro q hq hne
      rw [if_neg]
      rw [pos_inj hj (by have := mem_range.1 hq; omega)]
      omega
    · intro hq
      exact absurd (mem_range.2 (by omega)) hq
  · rw [if_neg h]
    refine sum_eq_zero fun q hq => ?_
    have := mem_range.1 hq
    rw [if_neg]
    rw [pos_inj hj (by omega)]
    omega

/-- **C58, `addDiagonal(alpha, d)`** on a square matrix. -/
theorem C58_addDiagonal (hA : Is A n n f) (alpha : K) (d : Arr K) (hd : d.size = n) :
    ∃ A', addDiagonal A alpha d = some A' ∧ A'.cap = A.cap ∧
      Is A' n n fun i j => f i j + if i = j then alpha * d.get i else 0 := by
  obtain ⟨A', h1, h2, h3⟩ := diag_loop hA (cnt := n) (s0 := 0) (fun i => alpha * d.get i) (by omega)
    (by omega) (body := fun i a => (d.read i).bind fun v => addDiagAt A a i (alpha * v)) (by
      intro i hi t
      rw [read_some (by omega)]
      simp)
  refine ⟨A', by unfold addDiagonal; rw [hA.hn]; exact h1, h2, h3.ok, h3.hm, h3.hn, fun i hi j hj => ?_⟩
  rw [h3.val i hi j hj]
  simp [hi]

/-- **C58, `addDiagonal(value)`** on a square matrix. -/
theorem C58_addDiagonalConst (hA : Is A n n f) (v : K) :
    ∃ A', addDiagonalConst A v = some A' ∧ A'.cap = A.cap ∧
      Is A' n n fun i j => f i j + if i = j then v else 0 := by
  obtain ⟨A', h1, h2, h3⟩ := diag_loop hA (cnt := n) (s0 := 0) (fun _ => v) (by omega)
    (by omega) (body := fun i a => addDiagAt A a i v) (by intro i hi t; simp)
  refine ⟨A', by unfold addDiagonalConst; rw [hA.hn]; exact h1, h2, h3.ok, h3.hm, h3.hn,
    fun i hi j hj => ?_⟩
  rw [h3.val i hi j hj]
  simp [hi]

/-- **C58, `addSubDiagonal(alpha, start, d)`.** -/
theorem C58_addSubDiagonal (hA : Is A m n f) (alpha : K) (start : ℕ) (d : Arr K)
    (hm : start + d.size ≤ m) (hn : start + d.size ≤ n) :
    ∃ A', addSubDiagonal A alpha start d = some A' ∧ A'.cap = A.cap ∧
      Is A' m n fun i j => f i j +
        if i = j ∧ start ≤ i ∧ i < start + d.size then alpha * d.get (i - start) else 0 :=
  diag_loop hA (cnt := d.size) (s0 := start) (fun i => alpha * d.get i) hm hn (by
    intro i hi t
    rw [read_some hi]
    simp)

/-- **C58, `addSubDiagonal(start, alpha, d, src, num)` (partial: the requested part lies in `d`).** The
number of entries is cut to what fits on the diagonal. Missing: `C58_addSubDiagonalFrom_false`. -/
theorem C58_addSubDiagonalFrom_partial (hA : Is A n n f) (start : ℕ) (alpha : K) (d : Arr K)
    (src : ℕ) (num : Option ℕ) (hs : start < n) (hd : src + num.getD (d.size - src) ≤ d.size) :
    ∃ A', addSubDiagonalFrom A start alpha d src num = some A' ∧ A'.cap = A.cap ∧
      Is A' n n fun i j => f i j +
        if i = j ∧ start ≤ i ∧ i < start + num.getD (d.size - src) then
          alpha * d.get (src + (i - start)) else 0 := by
  unfold addSubDiagonalFrom
  simp only
  rw [if_pos ⟨le_trans (Nat.le_add_left _ _) hd, by rw [hA.hn, hA.hm], by rw [hA.hm]; exact hs⟩, hA.hm]
  obtain ⟨A', h1, h2, h3⟩ := diag_loop hA (cnt := min (num.getD (d.size - src)) (n - start))
    (s0 := start) (fun i => alpha * d.get (src + i)) (by omega) (by omega)
    (body := fun i a => (d.read (src + i)).bind fun v => addDiagAt A a (i + start) (alpha * v)) (by
      intro i hi t
      rw [read_some (by have := lt_of_lt_of_le hi (min_le_left _ _); omega)]
      simp [Nat.add_comm])
  refine ⟨A', h1, h2, h3.ok, h3.hm, h3.hn, fun i hi j hj => ?_⟩
  rw [h3.val i hi j hj]
  congr 1
  generalize num.getD (d.size - src) = c at *
  by_cases h : i = j ∧ start ≤ i ∧ i < start + c
  · rw [if_pos h, if_pos (by omega)]
  · rw [if_neg h, if_neg (by omega)]

theorem loop_none {σ : Type*} {body : ℕ → σ → Option σ} {k i : ℕ} (s : σ) (hi : i < k)
    (h : ∀ t, body i t = none) : loop body k s = none := by
  induction k with
  | zero => omega
  | succ k ih =>
    simp only [loop]
    rcases Nat.lt_succ_iff_lt_or_eq.1 hi with hi' | rfl
    · rw [ih hi']; rfl
    · rcases loop body i s with _ | t
      · rfl
      · exact h t

/-- **C58 refuted for `addSubDiagonal(start, alpha, d, src, num)`.** The assertion compares `num` with
the size of `d` and forgets `src`: a part that does not lie in `d` passes all assertions and entries
behind the end of `d` are read. -/
theorem C58_addSubDiagonalFrom_false (hA : Is A n n f) (start : ℕ) (alpha : K) (d : Arr K)
    (src num : ℕ) (hnum : num ≤ d.size) (hpos : 0 < num) (hout : d.size < src + num) (hfit : start + num ≤ n)
    (hs : start < n) :
    addSubDiagonalFrom A start alpha d src (some num) = none := by
  unfold addSubDiagonalFrom
  simp only [Option.getD_some]
  rw [if_pos ⟨hnum, by rw [hA.hn, hA.hm], by rw [hA.hm]; exact hs⟩, hA.hm,
    loop_none (i := num - 1) _ (by omega) (by
      intro t
      rw [show d.read (src + (num - 1)) = none by unfold Arr.read; rw [if_neg (by omega)]]
      rfl)]
  rfl

/-- **C58, `addSubDiagonal(start, num, c)`.** -/
theorem C58_addSubDiagonalConst (hA : Is A n n f) (start num : ℕ) (c : K) (hs : start + num ≤ n) :
    ∃ A', addSubDiagonalConst A start num c = some A' ∧ A'.cap = A.cap ∧
      Is A' n n fun i j => f i j + if i = j ∧ start ≤ i ∧ i < start + num then c else 0 := by
  unfold addSubDiagonalConst
  rw [if_pos ⟨by rw [hA.hn]; exact hs, by rw [hA.hn, hA.hm]⟩]
  exact diag_loop hA (cnt := num) (s0 := start) (fun _ => c) hs hs (by
    intro i hi t; rw [Nat.add_comm])

/-! ## Sums of matrices -/

/-- **C58, `addMatrix`.** -/
theorem C58_addMatrix (hA : Is A m n f) (hX : Is X m n x) (alpha : K) :
    ∃ A', addMatrix A alpha X = some A' ∧ A'.cap = A.cap ∧
      Is A' m n fun i j => f i j + alpha * x i j := by
  unfold addMatrix daxpy
  rw [hA.hm, hA.hn]
  by_cases h : m * n = 0 ∨ alpha = 0
  · rw [if_pos h]
    refine ⟨_, rfl, rfl, is_put hA _ fun i hi j hj => ?_⟩
    rw [hA.get hi hj]
    rcases h with h | h
    · have := pos_lt_size hi hj
      omega
    · simp [h]
  · rw [if_neg h, if_neg (by have := hA.mn_le; have := hX.mn_le; omega)]
    refine ⟨_, rfl, rfl, is_put hA _ fun i hi j hj => ?_⟩
    have := pos_lt_size hi hj
    simp only [this, if_true]
    rw [hA.get hi hj, hX.get hi hj]

/-- **C58, `transAddToSymDenseMatrixUpperTriangle`.** When the block lies in the upper triangle of `W`
(its last row not below its first column), `alpha*A'` is added to it and nothing else changes. -/
theorem C58_transAddTo (hA : Is A m n f) (hW : Is W k k w) (r0 c0 : ℕ) (alpha : K)
    (hr : n + r0 ≤ k) (hc : m + c0 ≤ k) (hup : n + r0 ≤ c0 + 1) :
    ∃ W', transAddTo A r0 c0 alpha W = some W' ∧ W'.cap = W.cap ∧
      Is W' k k fun i j => w i j +
        if r0 ≤ i ∧ i < r0 + n ∧ c0 ≤ j ∧ j < c0 + m then alpha * f (j - c0) (i - r0) else 0 := by
  unfold transAddTo
  rw [hA.hm, hA.hn, hW.hm, hW.hn, if_pos ⟨hr, hc, rfl⟩]
  obtain ⟨t, h1, h2, h3⟩ := loop_accum (k := m) (s := W.arr)
    (body := fun ir a => loop (fun jc a =>
      if jc + r0 ≤ ir + c0 then
        match A.row ir with
        | none => none
        | some o => (A.arr.read (o + jc)).bind fun v => a.add ((jc + r0) * k + (ir + c0)) (alpha * v)
      else none) n a)
    (g := fun ir q => ∑ jc ∈ range n, if q = (jc + r0) * k + (ir + c0) then alpha * f ir jc else 0) (by
      intro ir hir t ht
      obtain ⟨t', a1, a2, a3⟩ := loop_accum (k := n) (s := t)
        (body := fun jc a => if jc + r0 ≤ ir + c0 then
          match A.row ir with
          | none => none
          | some o => (A.arr.read (o + jc)).bind fun v =>
            a.add ((jc + r0) * k + (ir + c0)) (alpha * v)
          else none)
        (g := fun jc q => if q = (jc + r0) * k + (ir + c0) then alpha * f ir jc else 0) (by
          intro jc hjc u hu
          rw [if_pos (by omega), hA.row hir]
          simp only
          rw [read_some (by rw [hA.size]; exact pos_lt_cap hir hjc hA.cap_le), hA.get hir hjc]
          obtain ⟨u', b1, b2, b3⟩ := add_some (a := u) (k := (jc + r0) * k + (ir + c0)) (by
            rw [hu, ht, hW.size]; exact pos_lt_cap (by omega) (by omega) hW.cap_le) (alpha * f ir jc)
          exact ⟨u', b1, by rw [b2, hu], b3⟩)
      exact ⟨t', a1, by rw [a2, ht], a3⟩)
  refine ⟨W.put t, congrArg (Option.map W.put) h1, rfl, is_put hW _ fun i hi j hj => ?_⟩
  rw [h3, hW.get hi hj]
  congr 1
  by_cases h : r0 ≤ i ∧ i < r0 + n ∧ c0 ≤ j ∧ j < c0 + m
  · rw [if_pos h, sum_eq_single (j - c0), sum_eq_single (i - r0)]
    · rw [if_pos]
      rw [pos_inj hj (by omega)]; omega
    · intro q hq hne
      rw [if_neg]
      rw [pos_inj hj (by omega)]; omega
    · intro hq; exact absurd (mem_range.2 (by omega)) hq
    · intro q hq hne
      refine sum_eq_zero fun p hp => ?_
      have := mem_range.1 hq
      rw [if_neg]
      rw [pos_inj hj (by omega)]; omega
    · intro hq; exact absurd (mem_range.2 (by omega)) hq
  · rw [if_neg h]
    refine sum_eq_zero fun q hq => sum_eq_zero fun p hp => ?_
    have := mem_range.1 hq
    have := mem_range.1 hp
    rw [if_neg]
    rw [pos_inj hj (by omega)]; omega

/-- A block that does not lie in the upper triangle is refused. -/
theorem C58_transAddTo_refused (hA : Is A m n f) (W : DMat K) (r0 c0 : ℕ) (alpha : K)
    (hm : m ≠ 0) (hn : n ≠ 0) (hup : ¬ n + r0 ≤ c0 + 1) : transAddTo A r0 c0 alpha W = none := by
  unfold transAddTo
  split
  · rw [loop_none (i := 0) _ (by rw [hA.hm]; omega) (by
      intro t
      refine loop_none (i := n - 1) _ (by rw [hA.hn]; omega) fun u => ?_
      rw [if_neg (by omega)])]
    rfl
  · rfl

/-- **C58, `addUpperTriangleToSymDenseMatrixUpperTriangle`.** The upper triangle of `A` is added to the
diagonal block of `W`; the lower triangle of `W` and everything outside the block stays. -/
theorem C58_addUpperTo (hA : Is A n n f) (hW : Is W k k w) (d0 : ℕ) (alpha : K) (hd : d0 + n ≤ k) :
    ∃ W', addUpperTo A d0 alpha W = some W' ∧ W'.cap = W.cap ∧
      Is W' k k fun i j => w i j +
        if d0 ≤ i ∧ i ≤ j ∧ j < d0 + n then alpha * f (i - d0) (j - d0) else 0 := by
  unfold addUpperTo
  rw [hA.hm, hA.hn, hW.hm, hW.hn, if_pos ⟨rfl, rfl, hd⟩]
  obtain ⟨t, h1, h2, h3⟩ := loop_accum (k := n) (s := W.arr)
    (body := fun i a => loop (fun l a =>
      let j := i + l
      if i + d0 ≤ j + d0 ∧ i + d0 < k ∧ j + d0 < k then
        match A.row i with
        | none => none
        | some o => (A.arr.read (o + j)).bind fun v =>
          a.add ((i + d0) * k + (j + d0)) (alpha * v)
      else none) (n - i) a)
    (g := fun i q => ∑ l ∈ range (n - i),
      if q = (i + d0) * k + (i + l + d0) then alpha * f i (i + l) else 0) (by
      intro i hi t ht
      obtain ⟨t', a1, a2, a3⟩ := loop_accum (k := n - i) (s := t)
        (body := fun l a =>
          let j := i + l
          if i + d0 ≤ j + d0 ∧ i + d0 < k ∧ j + d0 < k then
            match A.row i with
            | none => none
            | some o => (A.arr.read (o + j)).bind fun v =>
              a.add ((i + d0) * k + (j + d0)) (alpha * v)
          else none)
        (g := fun l q => if q = (i + d0) * k + (i + l + d0) then alpha * f i (i + l) else 0) (by
          intro l hl u hu
          simp only
          rw [if_pos (by omega), hA.row hi]
          simp only
          rw [read_some (by rw [hA.size]; exact pos_lt_cap hi (by omega) hA.cap_le),
            hA.get hi (by omega)]
          obtain ⟨u', b1, b2, b3⟩ := add_some (a := u) (k := (i + d0) * k + (i + l + d0)) (by
            rw [hu, ht, hW.size]; exact pos_lt_cap (by omega) (by omega) hW.cap_le)
            (alpha * f i (i + l))
          exact ⟨u', b1, by rw [b2, hu], b3⟩)
      exact ⟨t', a1, by rw [a2, ht], a3⟩)
  refine ⟨W.put t, congrArg (Option.map W.put) h1, rfl, is_put hW _ fun i hi j hj => ?_⟩
  rw [h3, hW.get hi hj]
  congr 1
  by_cases h : d0 ≤ i ∧ i ≤ j ∧ j < d0 + n
  · rw [if_pos h, sum_eq_single (i - d0), sum_eq_single (j - i)]
    · rw [if_pos, show i - d0 + (j - i) = j - d0 by omega]
      rw [pos_inj hj (by omega)]; omega
    · intro q hq hne
      have := mem_range.1 hq
      rw [if_neg]
      rw [pos_inj hj (by omega)]; omega
    · intro hq; exact absurd (mem_range.2 (by omega)) hq
    · intro q hq hne
      refine sum_eq_zero fun p hp => ?_
      have := mem_range.1 hq
      have := mem_range.1 hp
      rw [if_neg]
      rw [pos_inj hj (by omega)]; omega
    · intro hq; exact absurd (mem_range.2 (by omega)) hq
  · rw [if_neg h]
    refine sum_eq_zero fun q hq => sum_eq_zero fun p hp => ?_
    have := mem_range.1 hq
    have := mem_range.1 hp
    rw [if_neg]
    rw [pos_inj hj (by omega)]; omega

/-! ## Copies -/

/-- Copying a block of `c` entries into row `r`, from column `j0` on. -/
theorem memcpy_row {a src : Arr K} {N r j0 c so : ℕ} (hc : j0 + c ≤ N) (h1 : r * N + j0 + c ≤ a.size)
    (h2 : so + c ≤ src.size) :
    ∃ a', memcpy a (r * N + j0) src so c = some a' ∧ a'.size = a.size ∧
      ∀ i, ∀ j < N, a'.get (i * N + j) =
        if i = r ∧ j0 ≤ j ∧ j < j0 + c then src.get (so + (j - j0)) else a.get (i * N + j) := by
  refine ⟨_, memcpy_some h1 h2, rfl, fun i j hj => ?_⟩
  simp only
  have e1 := pos_le (i := r) (i' := i) hj (show j0 ≤ N by omega)
  have e2 := pos_lt (i := r) (i' := i) hj hc
  rw [← Nat.add_assoc] at e2
  simp only [e1, e2]
  by_cases h : i = r ∧ j0 ≤ j ∧ j < j0 + c
  · rw [if_pos h, if_pos (by omega)]
    congr 1
    obtain ⟨rfl, h3, h4⟩ := h
    omega
  · rw [if_neg h, if_neg (by omega)]

/-- The positions of row `i`. -/
def inRow (N i q : ℕ) : Prop := i * N ≤ q ∧ q < i * N + N

theorem inRow_pos {N i i' j : ℕ} (hj : j < N) : inRow N i (i' * N + j) ↔ i' = i := by
  unfold inRow
  have e1 := pos_le (i := i) (i' := i') hj (Nat.zero_le N)
  have e2 := pos_lt (i := i) (i' := i') hj le_rfl
  rw [Nat.add_zero] at e1
  rw [e1, e2]
  omega

theorem inRow_disj {N i i' q : ℕ} (h : inRow N i q) (h' : inRow N i' q) : i = i' := by
  unfold inRow at *
  obtain ⟨j, rfl⟩ : ∃ j, q = i * N + j := ⟨q - i * N, by omega⟩
  exact (inRow_pos (N := N) (i := i') (i' := i) (j := j) (by omega)).1 h'

theorem inRow_iff {N i q : ℕ} : inRow N i q ↔ ∃ j < N, q = i * N + j := by
  unfold inRow
  constructor
  · intro h; exact ⟨q - i * N, by omega, by omega⟩
  · rintro ⟨j, hj, rfl⟩; omega

/-- A loop whose body `i` overwrites row `r i`, rows being pairwise different. -/
theorem loop_rows {body : ℕ → Arr K → Option (Arr K)} {k N : ℕ} {s : Arr K} (r : ℕ → ℕ)
    (w : ℕ → ℕ → K) (hr : ∀ i < k, ∀ j < k, r i = r j → i = j)
    (h : ∀ i < k, ∀ t : Arr K, t.size = s.size →
      (∀ p, (∀ i' < i, p ≠ r i') → ∀ j < N, t.get (p * N + j) = s.get (p * N + j)) →
      ∃ t', body i t = some t' ∧ t'.size = s.size ∧ (∀ j < N, t'.get (r i * N + j) = w i j) ∧
        ∀ q, ¬ inRow N (r i) q → t'.get q = t.get q) :
    ∃ t, loop body k s = some t ∧ t.size = s.size ∧
      (∀ i < k, ∀ j < N, t.get (r i * N + j) = w i j) ∧
      (∀ p, (∀ i < k, p ≠ r i) → ∀ j < N, t.get (p * N + j) = s.get (p * N + j)) := by
  obtain ⟨t, h1, h2, h3, h4⟩ := loop_over (body := body) (k := k) (s := s)
    (fun i q => inRow N (r i) q) (fun i q => w i (q - r i * N))
    (fun i hi j hj q a b => hr i hi j hj (inRow_disj a b)) (by
      intro i hi t ht hinv
      obtain ⟨t', a1, a2, a3, a4⟩ := h i hi t ht (by
        intro p hp j hj
        refine hinv _ fun i' hi' => ?_
        rw [inRow_pos hj]
        exact hp i' hi')
      refine ⟨t', a1, a2, ?_, a4⟩
      intro q hq
      obtain ⟨j, hj, rfl⟩ := inRow_iff.1 hq
      rw [a3 j hj]
      congr 1; omega)
  refine ⟨t, h1, h2, ?_, ?_⟩
  · intro i hi j hj
    rw [h3 i hi _ ((inRow_pos hj).2 rfl)]
    congr 1; omega
  · intro p hp j hj
    refine h4 _ fun i hi => ?_
    rw [inRow_pos hj]
    exact hp i hi

/-- A whole row. -/
theorem memcpy_whole {a src : Arr K} {N r so : ℕ} (h1 : r * N + N ≤ a.size) (h2 : so + N ≤ src.size) :
    ∃ a', memcpy a (r * N) src so N = some a' ∧ a'.size = a.size ∧
      (∀ j < N, a'.get (r * N + j) = src.get (so + j)) ∧
      ∀ q, ¬ inRow N r q → a'.get q = a.get q := by
  refine ⟨_, memcpy_some h1 h2, rfl, fun j hj => ?_, fun q hq => ?_⟩
  · simp only
    rw [if_pos (by omega)]
    congr 1; omega
  · exact if_neg hq

theorem row_end {i N c : ℕ} (h : i < c) : i * N + N ≤ c * N := by
  have := Nat.mul_le_mul_right N (Nat.succ_le_of_lt h)
  rwa [Nat.succ_mul] at this

/-- **C58, constructor.** A matrix of zeros with room for the requested number of rows. -/
theorem C58_new (m n : ℕ) (mmax : Option ℕ) (h : m ≤ mmax.getD m) :
    ∃ A : DMat K, new m n mmax = some A ∧ A.cap = mmax.getD m ∧ Is A m n fun _ _ => 0 := by
  unfold new
  rw [if_neg (by omega)]
  exact ⟨_, rfl, rfl, ⟨h, by simp⟩, rfl, rfl, fun _ _ _ _ => rfl⟩

/-- **C58, `appendRow`.** With room left, the row is added at the end and the others stay. -/
theorem C58_appendRow (hA : Is A m n f) (r : Arr K) (hr : r.size = n) (hc : m < A.cap) :
    ∃ A', appendRow A r = some A' ∧ A'.cap = A.cap ∧
      Is A' (m + 1) n fun i j => if i = m then r.get j else f i j := by
  unfold appendRow
  have e : A.row A.m = some (m * n) := by
    unfold DMat.row; rw [if_pos (by rw [hA.hm]; omega), hA.hm, hA.hn]
  obtain ⟨a, h1, h2, h3, h4⟩ := memcpy_whole (a := A.arr) (src := r) (N := n) (r := m) (so := 0)
    (by rw [hA.size]; exact row_end hc) (by omega)
  rw [e, hA.hn]
  simp only [h1]
  refine ⟨_, rfl, rfl, ⟨?_, hA.ok.2⟩, ?_, hA.hn, fun i hi j hj => ?_⟩
  · show A.m + 1 ≤ A.cap
    rw [hA.hm]; omega
  · show A.m + 1 = m + 1
    rw [hA.hm]
  · show a.get (i * A.n + j) = _
    rw [hA.hn]
    by_cases him : i = m
    · subst him
      rw [if_pos rfl, h3 j hj, Nat.zero_add]
    · rw [if_neg him, h4 _ (by rw [inRow_pos hj]; exact him), hA.get (by omega) hj]

/-- Without room an appended row lands outside the storage. -/
theorem C58_appendRow_full (hA : Is A m n f) (r : Arr K) (hn : n ≠ 0) (hc : m = A.cap) :
    appendRow A r = none := by
  unfold appendRow
  by_cases h0 : m = 0
  · have e : A.row A.m = some (m * n) := by
      unfold DMat.row; rw [if_pos (by rw [hA.hm]; omega), hA.hm, hA.hn]
    rw [e]
    simp only
    unfold memcpy
    rw [if_neg (by rw [hA.size, hA.hn]; subst h0; rw [← hc]; omega)]
  · have e : A.row A.m = none := by
      unfold DMat.row; rw [if_neg (by rw [hA.hm]; omega)]
    rw [e]

/-- **C58, `copyFrom` another matrix (partial: when the source has no storage, neither has the
destination).** Missing: `C58_copyFrom_empty_false`. -/
theorem C58_copyFrom_partial (hA : Is A m n f) (hB : Is B m n g) (hcap : B.cap = 0 → A.cap = 0) :
    ∃ A', copyFrom A B = some A' ∧ A'.cap = A.cap ∧ Is A' m n g := by
  unfold copyFrom
  rw [hA.hm, hA.hn, hB.hm, hB.hn, if_pos ⟨rfl, rfl⟩]
  by_cases hnull : B.null = true
  · rw [if_pos hnull]
    have h0 := hB.ok.2.1 hnull
    have hm0 : m = 0 := by have := hB.cap_le; omega
    refine ⟨_, rfl, rfl, ⟨hA.cap_le, ?_⟩, rfl, rfl, fun i hi => by omega⟩
    simp [hcap h0]
  · rw [if_neg hnull]
    rw [memcpy_some (by have := hA.mn_le; omega) (by have := hB.mn_le; omega)]
    refine ⟨_, rfl, rfl, is_put hA _ fun i hi j hj => ?_⟩
    have := pos_lt_size hi hj
    simp only [Nat.zero_le, true_and, zero_add, this, if_true, Nat.sub_zero]
    exact hB.get hi hj

/-- **C58 refuted for `copyFrom` of a matrix without storage.** Copying an empty matrix into an empty
matrix with room for rows loses the room: the next `appendRow` writes through a null pointer. -/
theorem C58_copyFrom_empty_false (hA : Is A 0 n f) (hB : Is B 0 n g) (hB0 : B.cap = 0) (hn : n ≠ 0)
    (r : Arr K) : ∃ A', copyFrom A B = some A' ∧ appendRow A' r = none := by
  unfold copyFrom
  rw [hA.hm, hA.hn, hB.hm, hB.hn, if_pos ⟨rfl, rfl⟩, if_pos (hB.ok.2.2 hB0)]
  refine ⟨_, rfl, ?_⟩
  unfold appendRow DMat.row
  simp only [hA.hm]
  rw [if_pos (by omega)]
  simp only
  unfold memcpy
  rw [if_neg]
  simp only [DMat.arr, if_true, hA.hn]
  omega

/-- **C58, `copyFrom` an array.** -/
theorem C58_copyFromBuf (hA : Is A m n f) (b : Arr K) (hb : m * n ≤ b.size) :
    ∃ A', copyFromBuf A (some b) = some A' ∧ A'.cap = A.cap ∧
      Is A' m n fun i j => b.get (i * n + j) := by
  unfold copyFromBuf
  simp only
  rw [hA.hm, hA.hn, memcpy_some (by have := hA.mn_le; omega) (by omega)]
  refine ⟨_, rfl, rfl, is_put hA _ fun i hi j hj => ?_⟩
  have := pos_lt_size hi hj
  simp only [Nat.zero_le, true_and, zero_add, this, if_true, Nat.sub_zero]

/-- **C58, `copy_to` an array.** -/
theorem C58_copyTo (hA : Is A m n f) (b : Arr K) (hb : m * n ≤ b.size) :
    ∃ b', copyTo A b = some b' ∧ b'.size = b.size ∧ ∀ i < m, ∀ j < n, b'.get (i * n + j) = f i j := by
  unfold copyTo
  rw [hA.hm, hA.hn, memcpy_some (by omega) (by have := hA.mn_le; omega)]
  refine ⟨_, rfl, rfl, fun i hi j hj => ?_⟩
  have := pos_lt_size hi hj
  simp only [Nat.zero_le, true_and, zero_add, this, if_true, Nat.sub_zero]
  exact hA.get hi hj

/-- **C58, `new_copy`.** -/
theorem C58_newCopy (hA : Is A m n f) (junk : ℕ → K) :
    ∃ A', newCopy A junk = some A' ∧ A'.cap = A.cap ∧ Is A' m n f := by
  have hc : Is (clone A junk) m n fun i j => junk (i * n + j) := by
    refine ⟨⟨hA.ok.1, ?_⟩, hA.hm, hA.hn, fun i hi j hj => ?_⟩
    · simp [clone]
    · show junk (i * A.n + j) = _
      rw [hA.hn]
  exact C58_copyFrom_partial hc hA id

/-- **C58, `copyRowsFrom(src, num_rows, row_dest)`.** -/
theorem C58_copyRows (hA : Is A m n f) (hB : Is B k n g) (num row : ℕ) (h1 : row + num ≤ m)
    (h2 : num ≤ k) :
    ∃ A', copyRows A B num row = some A' ∧ A'.cap = A.cap ∧
      Is A' m n fun i j => if row ≤ i ∧ i < row + num then g (i - row) j else f i j := by
  unfold copyRows
  by_cases h0 : num = 0
  · subst h0
    rw [if_pos rfl]
    refine ⟨A, rfl, rfl, hA.ok, hA.hm, hA.hn, fun i hi j hj => ?_⟩
    rw [if_neg (by omega), hA.val i hi j hj]
  · rw [if_neg h0, hA.row (show row < m by omega)]
    simp only
    have e1 : row * n + n * num ≤ A.arr.size := by
      have := Nat.mul_le_mul_right n h1
      have := hA.mn_le
      rw [Nat.add_mul, Nat.mul_comm num] at *
      omega
    have e2 : 0 + n * num ≤ B.arr.size := by
      have := Nat.mul_le_mul_right n h2
      have := hB.mn_le
      rw [Nat.mul_comm num] at *
      omega
    rw [hA.hn, memcpy_some e1 e2]
    refine ⟨_, rfl, rfl, is_put hA _ fun i hi j hj => ?_⟩
    simp only
    have a1 := pos_le (i := row) (i' := i) hj (Nat.zero_le n)
    have a2 := pos_lt (i := row + num) (i' := i) hj (Nat.zero_le n)
    rw [Nat.add_zero] at a1 a2
    rw [Nat.add_mul, Nat.mul_comm num] at a2
    simp only [a1, a2]
    by_cases h : row ≤ i ∧ i < row + num
    · rw [if_pos h, if_pos (by omega), ← hB.get (show i - row < k by omega) hj]
      congr 1
      obtain ⟨p, rfl⟩ : ∃ p, i = row + p := ⟨i - row, by omega⟩
      rw [Nat.add_mul]
      simp only [Nat.add_sub_cancel_left]
      omega
    · rw [if_neg h, if_neg (by omega), hA.get hi hj]

/-- **C58, `copyRowsFrom(src, rows_idxs, n_rows)`.** -/
theorem C58_copyRowsIdx (hA : Is A m n f) (hB : Is B k n g) (idx : ℕ → ℕ) (hmk : m ≤ k)
    (hidx : ∀ i < m, idx i < k) :
    ∃ A', copyRowsIdx A B idx m = some A' ∧ A'.cap = A.cap ∧ Is A' m n fun i j => g (idx i) j := by
  unfold copyRowsIdx
  rw [hA.hm, hA.hn, hB.hm, hB.hn, if_pos ⟨rfl, hmk, rfl⟩]
  obtain ⟨t, h1, h2, h3, h4⟩ := loop_rows (k := m) (N := n) (s := A.arr) (fun i => i)
    (fun i j => g (idx i) j)
    (body := fun i a => match A.row i, B.row (idx i) with
      | some o, some s => memcpy a o B.arr s n
      | _, _ => none) (fun i _ j _ h => h) (by
      intro i hi t ht _
      simp only [hA.row hi, hB.row (hidx i hi)]
      obtain ⟨a, b1, b2, b3, b4⟩ := memcpy_whole (a := t) (src := B.arr) (N := n) (r := i)
        (so := idx i * n) (by rw [ht, hA.size]; exact row_end (lt_of_lt_of_le hi hA.cap_le))
        (by rw [hB.size]; exact row_end (lt_of_lt_of_le (hidx i hi) hB.cap_le))
      exact ⟨a, b1, by rw [b2, ht], fun j hj => by rw [b3 j hj, hB.get (hidx i hi) hj], b4⟩)
  exact ⟨A.put t, congrArg (Option.map A.put) h1, rfl, is_put hA _ fun i hi j hj => h3 i hi j hj⟩

/-- **C58, `copyBlockFromMatrix`.** The block is overwritten and nothing else. -/
theorem C58_copyBlock (hA : Is A m n f) (i0 j0 : ℕ) {bm bn : ℕ} (hB : Is B bm bn g)
    (h1 : i0 + bm ≤ m) (h2 : j0 + bn ≤ n) :
    ∃ A', copyBlock A i0 j0 B = some A' ∧ A'.cap = A.cap ∧
      Is A' m n fun i j => if i0 ≤ i ∧ i < i0 + bm ∧ j0 ≤ j ∧ j < j0 + bn then
        g (i - i0) (j - j0) else f i j := by
  unfold copyBlock
  simp only [hA.hm, hA.hn, hB.hm, hB.hn]
  rw [if_pos ⟨h1, h2⟩]
  by_cases h0 : bn = 0 ∨ bm = 0
  · rw [if_pos h0]
    refine ⟨A, rfl, rfl, hA.ok, hA.hm, hA.hn, fun i hi j hj => ?_⟩
    rw [if_neg (by omega), hA.val i hi j hj]
  · rw [if_neg h0]
    obtain ⟨t, a1, a2, a3, a4⟩ := loop_over (k := bm) (s := A.arr)
      (fun i q => ∃ j < bn, q = (i + i0) * n + (j0 + j)) (fun i q => g i (q - ((i + i0) * n + j0)))
      (body := fun i a => match A.row (i + i0), B.row i with
        | some o, some s => memcpy a (o + j0) B.arr s bn
        | _, _ => none) (by
        rintro i hi i' hi' q ⟨j, hj, rfl⟩ ⟨j', hj', h⟩
        have := (pos_inj (by omega) (by omega)).1 h
        omega) (by
        intro i hi t ht _
        simp only [hA.row (show i + i0 < m by omega), hB.row hi]
        have e1 := row_end (N := n) (lt_of_lt_of_le (show i + i0 < m by omega) hA.cap_le)
        have e2 := row_end (N := bn) (lt_of_lt_of_le hi hB.cap_le)
        rw [← hA.size, ← ht] at e1
        rw [← hB.size] at e2
        refine ⟨_, memcpy_some (by omega) e2, ht, ?_, ?_⟩
        · rintro q ⟨j, hj, rfl⟩
          simp only
          rw [if_pos (by omega), show (i + i0) * n + (j0 + j) - ((i + i0) * n + j0) = j by omega]
          exact hB.get hi hj
        · intro q hq
          simp only
          rw [if_neg]
          rintro ⟨b1, b2⟩
          exact hq ⟨q - ((i + i0) * n + j0), by omega, by omega⟩)
    refine ⟨A.put t, congrArg (Option.map A.put) a1, rfl, is_put hA _ fun i hi j hj => ?_⟩
    by_cases h : i0 ≤ i ∧ i < i0 + bm ∧ j0 ≤ j ∧ j < j0 + bn
    · rw [if_pos h]
      have e : i * n + j = (i - i0 + i0) * n + (j0 + (j - j0)) := by
        rw [show i - i0 + i0 = i by omega]; omega
      rw [a3 (i - i0) (by omega) _ ⟨j - j0, by omega, e⟩, e]
      congr 1; omega
    · rw [if_neg h, a4 _ (by
        rintro i' hi' ⟨j', hj', e⟩
        have := (pos_inj hj (by omega)).1 e
        omega), hA.get hi hj]

/-- **C58, `copyFromMatrixBlock`**, for a destination with at least one row. -/
theorem C58_copyFromBlock (hA : Is A m n f) {bm bn : ℕ} (hB : Is B bm bn g) (i0 j0 : ℕ)
    (h1 : m + i0 ≤ bm) (h2 : n + j0 ≤ bn) (hm : m ≠ 0) :
    ∃ A', copyFromBlock A B i0 j0 = some A' ∧ A'.cap = A.cap ∧
      Is A' m n fun i j => g (i0 + i) (j0 + j) := by
  unfold copyFromBlock
  simp only [hA.hm, hA.hn, hB.hm, hB.hn]
  rw [if_pos ⟨h1, h2⟩]
  by_cases hn : n = bn
  · subst hn
    rw [if_pos rfl, hB.row (show i0 < bm by omega)]
    obtain rfl : j0 = 0 := by omega
    have e1 : 0 + n * m ≤ A.arr.size := by
      have := hA.mn_le; rw [Nat.mul_comm] at this; omega
    have e2 : i0 * n + n * m ≤ B.arr.size := by
      have := hB.mn_le
      have := Nat.mul_le_mul_right n h1
      rw [Nat.add_mul, Nat.mul_comm m] at this
      omega
    simp only
    rw [memcpy_some e1 e2]
    refine ⟨_, rfl, rfl, is_put hA _ fun i hi j hj => ?_⟩
    have := pos_lt_size hi hj
    rw [Nat.mul_comm] at this
    simp only
    rw [if_pos (by rw [Nat.mul_comm n m, Nat.zero_add]; exact ⟨Nat.zero_le _, pos_lt_size hi hj⟩),
      Nat.zero_add, ← hB.get (show i0 + i < bm by omega) hj]
    congr 1
    rw [Nat.add_mul]; omega
  · rw [if_neg hn]
    obtain ⟨t, b1, b2, b3, b4⟩ := loop_rows (k := m) (N := n) (s := A.arr) (fun i => i)
      (fun i j => g (i0 + i) (j0 + j))
      (body := fun i a => match A.row i, B.row (i + i0) with
        | some o, some s => memcpy a o B.arr (s + j0) n
        | _, _ => none) (fun i _ j _ h => h) (by
        intro i hi t ht _
        simp only [hA.row hi, hB.row (show i + i0 < bm by omega)]
        have e2 := row_end (N := bn) (lt_of_lt_of_le (show i + i0 < bm by omega) hB.cap_le)
        rw [← hB.size] at e2
        obtain ⟨a, c1, c2, c3, c4⟩ := memcpy_whole (a := t) (src := B.arr) (N := n) (r := i)
          (so := (i + i0) * bn + j0)
          (by rw [ht, hA.size]; exact row_end (lt_of_lt_of_le hi hA.cap_le)) (by omega)
        refine ⟨a, c1, by rw [c2, ht], fun j hj => ?_, c4⟩
        rw [c3 j hj, Nat.add_assoc, hB.get (show i + i0 < bm by omega) (by omega), Nat.add_comm i])
    exact ⟨A.put t, congrArg (Option.map A.put) b1, rfl, is_put hA _ fun i hi j hj => b3 i hi j hj⟩

/-- **C58, `shiftRows` up.** Row `i` receives row `i + s`; the last `s` rows stay. -/
theorem C58_shiftRows_up (hA : Is A m n f) (s : ℕ) (h0 : 0 < s) (hs : s < m) :
    ∃ A', shiftRows A (-(s : ℤ)) = some A' ∧ A'.cap = A.cap ∧
      Is A' m n fun i j => if i + s < m then f (i + s) j else f i j := by
  unfold shiftRows
  simp only [hA.hm, hA.hn, Int.natAbs_neg, Int.natAbs_natCast]
  rw [if_neg (by omega), if_neg (by omega), if_neg (by omega), if_neg (by omega), if_pos (by omega)]
  obtain ⟨t, b1, b2, b3, b4⟩ := loop_rows (k := m - s) (N := n) (s := A.arr) (fun i => i)
    (fun i j => f (i + s) j)
    (body := fun r a => match A.row r, A.row (r + s) with
      | some o, some q => memcpy a o a q n
      | _, _ => none) (fun i _ j _ h => h) (by
      intro i hi t ht hinv
      simp only [hA.row (show i < m by omega), hA.row (show i + s < m by omega)]
      obtain ⟨a, c1, c2, c3, c4⟩ := memcpy_whole (a := t) (src := t) (N := n) (r := i)
        (so := (i + s) * n)
        (by rw [ht, hA.size]; exact row_end (lt_of_lt_of_le (show i < m by omega) hA.cap_le))
        (by rw [ht, hA.size]; exact row_end (lt_of_lt_of_le (show i + s < m by omega) hA.cap_le))
      refine ⟨a, c1, by rw [c2, ht], fun j hj => ?_, c4⟩
      rw [c3 j hj, hinv (i + s) (fun i' hi' => by omega) j hj, hA.get (by omega) hj])
  refine ⟨A.put t, congrArg (Option.map A.put) b1, rfl, is_put hA _ fun i hi j hj => ?_⟩
  by_cases h : i + s < m
  · rw [if_pos h, b3 i (by omega) j hj]
  · rw [if_neg h, b4 i (fun i' hi' => by omega) j hj, hA.get hi hj]

/-- **C58, `shiftRows` down.** Row `i + s` receives row `i`; the first `s` rows stay. -/
theorem C58_shiftRows_down (hA : Is A m n f) (s : ℕ) (h0 : 0 < s) (hs : s < m) :
    ∃ A', shiftRows A (s : ℤ) = some A' ∧ A'.cap = A.cap ∧
      Is A' m n fun i j => if s ≤ i then f (i - s) j else f i j := by
  unfold shiftRows
  simp only [hA.hm, hA.hn, Int.natAbs_natCast]
  rw [if_neg (by omega), if_neg (by omega), if_neg (by omega), if_neg (by omega), if_neg (by omega)]
  obtain ⟨t, b1, b2, b3, b4⟩ := loop_rows (k := m - s) (N := n) (s := A.arr) (fun l => m - 1 - l)
    (fun l j => f (m - 1 - l - s) j)
    (body := fun l a => match A.row (m - 1 - l), A.row (m - 1 - l - s) with
      | some o, some q => memcpy a o a q n
      | _, _ => none) (fun i _ j _ h => by omega) (by
      intro i hi t ht hinv
      simp only [hA.row (show m - 1 - i < m by omega), hA.row (show m - 1 - i - s < m by omega)]
      obtain ⟨a, c1, c2, c3, c4⟩ := memcpy_whole (a := t) (src := t) (N := n) (r := m - 1 - i)
        (so := (m - 1 - i - s) * n)
        (by rw [ht, hA.size]; exact row_end (lt_of_lt_of_le (show m - 1 - i < m by omega) hA.cap_le))
        (by rw [ht, hA.size]
            exact row_end (lt_of_lt_of_le (show m - 1 - i - s < m by omega) hA.cap_le))
      refine ⟨a, c1, by rw [c2, ht], fun j hj => ?_, c4⟩
      rw [c3 j hj, hinv (m - 1 - i - s) (fun i' hi' => by omega) j hj, hA.get (by omega) hj])
  refine ⟨A.put t, congrArg (Option.map A.put) b1, rfl, is_put hA _ fun i hi j hj => ?_⟩
  by_cases h : s ≤ i
  · rw [if_pos h]
    have := b3 (m - 1 - i) (by omega) j hj
    rwa [show m - 1 - (m - 1 - i) = i by omega] at this
  · rw [if_neg h, b4 i (fun i' hi' => by omega) j hj, hA.get hi hj]

/-- **C58, `shiftRows`, remaining cases.** No shift, a shift by the number of rows and a matrix with
at most one row leave the matrix alone; a larger shift is refused. -/
theorem C58_shiftRows_other (hA : Is A m n f) (s : ℤ) :
    (s = 0 ∨ s.natAbs = m ∨ m ≤ 1 → shiftRows A s = some A) ∧
      (m < s.natAbs → 2 ≤ m → shiftRows A s = none) := by
  unfold shiftRows
  rw [hA.hm]
  refine ⟨fun h => ?_, fun h1 h2 => ?_⟩
  · by_cases h0 : s = 0
    · rw [if_pos h0]
    · rw [if_neg h0]
      by_cases h1 : s.natAbs = m
      · rw [if_pos h1]
      · rw [if_neg h1, if_pos (by omega)]
  · rw [if_neg (by omega), if_neg (by omega), if_neg (by omega), if_pos (by omega)]

/-- **C58, `replaceRow`.** A shorter vector replaces the beginning of the row. -/
theorem C58_replaceRow (hA : Is A m n f) (row : ℕ) (hr : row < m) (v : Arr K) :
    ∃ A', replaceRow A row v = some A' ∧ A'.cap = A.cap ∧
      Is A' m n fun i j => if i = row ∧ j < v.size then v.get j else f i j := by
  unfold replaceRow
  rw [hA.hm, if_pos hr, hA.row hr, hA.hn]
  simp only
  have e := row_end (N := n) (lt_of_lt_of_le hr hA.cap_le)
  rw [← hA.size] at e
  obtain ⟨a, h1, h2, h3⟩ := memcpy_row (a := A.arr) (src := v) (N := n) (r := row) (j0 := 0)
    (c := if n ≤ v.size then n else v.size) (so := 0) (by split <;> omega) (by split <;> omega)
    (by split <;> omega)
  rw [Nat.add_zero] at h1
  rw [h1]
  refine ⟨_, rfl, rfl, is_put hA _ fun i hi j hj => ?_⟩
  rw [h3 i j hj, hA.get hi hj]
  by_cases h : i = row ∧ j < v.size
  · rw [if_pos h, if_pos (by split <;> omega)]; simp
  · rw [if_neg h, if_neg (by split <;> omega)]

/-- **C58, `getRow`.** -/
theorem C58_getRow (hA : Is A m n f) (row : ℕ) (hr : row < m) (v : Arr K) (hv : v.size = n) :
    ∃ v', getRow A row v = some v' ∧ v'.size = n ∧ ∀ j < n, v'.get j = f row j := by
  unfold getRow
  have e := row_end (N := n) (lt_of_lt_of_le hr hA.cap_le)
  rw [← hA.size] at e
  rw [hA.hm, hA.hn, if_pos ⟨hr, hv.symm⟩, hA.row hr]
  simp only
  rw [memcpy_some (by omega) e]
  refine ⟨_, rfl, hv, fun j hj => ?_⟩
  simp only
  rw [if_pos (by omega), Nat.sub_zero]
  exact hA.get hr hj

/-- **C58, `setToConstant`.** -/
theorem C58_setToConstant (hA : Is A m n f) (c : K) :
    ∃ A', setToConstant A c = some A' ∧ A'.cap = A.cap ∧ Is A' m n fun _ _ => c := by
  unfold setToConstant
  by_cases hnull : A.null = true
  · rw [if_pos hnull]
    have h0 := hA.ok.2.1 hnull
    have hm : m = 0 := by have := hA.cap_le; omega
    subst hm
    rw [if_pos hA.hm]
    exact ⟨A, rfl, rfl, hA.ok, hA.hm, hA.hn, fun i hi => by omega⟩
  · rw [if_neg hnull, hA.hm, hA.hn]
    have hcap : A.cap ≠ 0 := fun h => hnull (hA.ok.2.2 h)
    have hsz := hA.size
    have hn : n ≤ A.arr.size := by
      rw [hsz]; calc n = 1 * n := by ring
        _ ≤ A.cap * n := Nat.mul_le_mul_right _ (by omega)
    obtain ⟨t, h1, h2, h3, -⟩ := loop_over (k := n) (s := A.arr) (fun i q => q = i) (fun _ _ => c)
      (body := fun j (a : Arr K) => a.set j c) (by intro i _ j _ q a b; omega) (by
        intro i hi t ht _
        refine ⟨_, set_some (by omega) _, ht, ?_, ?_⟩
        · rintro q rfl; simp
        · intro q hq; simp only; rw [if_neg hq])
    rw [h1]
    simp only [Option.bind_some]
    obtain ⟨u, b1, b2, b3, b4⟩ := loop_rows (k := m - 1) (N := n) (s := t) (fun i => i + 1)
      (fun _ _ => c)
      (body := fun i a => match A.row (i + 1) with
        | some o => memcpy a o a 0 n
        | none => none) (fun i _ j _ h => by omega) (by
        intro i hi u hu hinv
        simp only [hA.row (show i + 1 < m by omega)]
        obtain ⟨a, c1, c2, c3, c4⟩ := memcpy_whole (a := u) (src := u) (N := n) (r := i + 1)
          (so := 0)
          (by rw [hu, h2, hA.size]
              exact row_end (lt_of_lt_of_le (show i + 1 < m by omega) hA.cap_le))
          (by omega)
        refine ⟨a, c1, by rw [c2, hu], fun j hj => ?_, c4⟩
        have := hinv 0 (fun i' hi' => by omega) j hj
        rw [Nat.zero_mul] at this
        rw [c3 j hj, this, Nat.zero_add, h3 j hj j rfl])
    refine ⟨A.put u, congrArg (Option.map A.put) b1, rfl, is_put hA _ fun i hi j hj => ?_⟩
    by_cases h : i = 0
    · subst h
      rw [b4 0 (fun i' hi' => by omega) j hj, Nat.zero_mul, Nat.zero_add, h3 j hj j rfl]
    · have := b3 (i - 1) (by omega) j hj
      rwa [show i - 1 + 1 = i by omega] at this

/-- **C58, `set_Hess_FR`** (matrix objects created by the constructor with `n` rows). -/
theorem C58_setHessFR (hA : Is A n n f) (hB : Is B n n g) (hcap : B.cap = 0 → A.cap = 0) (d : Arr K)
    (hd : d.size = n) :
    ∃ A', setHessFR A B d = some A' ∧ A'.cap = A.cap ∧
      Is A' n n fun i j => g i j + if i = j then d.get i else 0 := by
  obtain ⟨A1, h1, h2, h3⟩ := C58_copyFrom_partial hA hB hcap
  obtain ⟨A2, h4, h5, h6⟩ := C58_addDiagonal h3 1 d hd
  refine ⟨A2, by unfold setHessFR; rw [h1]; exact h4, by rw [h5, h2], h6.ok, h6.hm, h6.hn,
    fun i hi j hj => ?_⟩
  rw [h6.val i hi j hj]
  simp

/-! ## Scaling, norms, symmetry -/

/-- **C58, `scale_row`.** Every row is multiplied by its factor, or by the inverse of it. -/
theorem C58_scaleRow (hA : Is A m n f) (v : Arr K) (hv : v.size = m) (inv : Bool) :
    ∃ A', scaleRow A v inv = some A' ∧ A'.cap = A.cap ∧
      Is A' m n fun i j => (if inv then (v.get i)⁻¹ else v.get i) * f i j := by
  unfold scaleRow
  rw [hA.hm, hA.hn, if_pos hv.symm]
  obtain ⟨t, b1, b2, b3, b4⟩ := loop_rows (k := m) (N := n) (s := A.arr) (fun i => i)
    (fun i j => (if inv then (v.get i)⁻¹ else v.get i) * f i j)
    (body := fun i a => dscal n (if inv then 1 / v.get i else v.get i) a (i * n))
    (fun i _ j _ h => h) (by
      intro i hi t ht hinv
      unfold dscal
      by_cases hn : n = 0
      · subst hn
        exact ⟨t, by simp, ht, fun j hj => by omega, fun _ _ => rfl⟩
      · have e := row_end (N := n) (lt_of_lt_of_le hi hA.cap_le)
        rw [← hA.size, ← ht] at e
        rw [if_neg hn, if_neg (by omega)]
        refine ⟨_, rfl, ht, fun j hj => ?_, fun q hq => if_neg hq⟩
        simp only
        rw [if_pos (by omega), hinv i (fun i' hi' => by omega) j hj, hA.get hi hj]
        simp)
  exact ⟨A.put t, congrArg (Option.map A.put) b1, rfl, is_put hA _ fun i hi j hj => b3 i hi j hj⟩

/-- `v` is the largest absolute value of the matrix, 0 for an empty one. -/
def IsMaxAbs (v : K) (m n : ℕ) (f : ℕ → ℕ → K) : Prop :=
  (∀ i < m, ∀ j < n, |f i j| ≤ v) ∧ ((v = 0 ∧ (m = 0 ∨ n = 0)) ∨ ∃ i < m, ∃ j < n, v = |f i j|)

theorem fold_max {α : Type*} (l : List α) (h : α → K) (v0 : K) :
    let v := l.foldl (fun v a => if v < h a then h a else v) v0
    v0 ≤ v ∧ (∀ a ∈ l, h a ≤ v) ∧ (v = v0 ∨ ∃ a ∈ l, v = h a) := by
  induction l generalizing v0 with
  | nil => simp
  | cons a l ih =>
    obtain ⟨h1, h2, h3⟩ := ih (if v0 < h a then h a else v0)
    simp only [List.foldl_cons]
    have e : v0 ≤ (if v0 < h a then h a else v0) ∧ h a ≤ (if v0 < h a then h a else v0) := by
      split
      · rename_i hlt; exact ⟨hlt.le, le_rfl⟩
      · rename_i hlt; exact ⟨le_rfl, not_lt.1 hlt⟩
    refine ⟨le_trans e.1 h1, ?_, ?_⟩
    · intro b hb
      rcases List.mem_cons.1 hb with rfl | hb
      · exact le_trans e.2 h1
      · exact h2 b hb
    · rcases h3 with h3 | ⟨b, hb, h3⟩
      · rw [h3]
        split
        · right; exact ⟨a, List.mem_cons_self, rfl⟩
        · left; rfl
      · right; exact ⟨b, List.mem_cons_of_mem _ hb, h3⟩

theorem dlange_spec (M N : ℕ) (a : Arr K) (off lda : ℕ)
    (h : M = 0 ∨ N = 0 ∨ off + ((N - 1) * lda + M) ≤ a.size) :
    ∃ v, dlange M N a off lda = some v ∧ IsMaxAbs v N M fun j i => a.get (off + (i + j * lda)) := by
  unfold dlange
  by_cases h0 : M = 0 ∨ N = 0
  · rw [if_pos h0]
    exact ⟨0, rfl, fun i hi j hj => by omega, Or.inl ⟨rfl, by tauto⟩⟩
  · rw [if_neg h0, if_neg (by omega)]
    refine ⟨_, rfl, ?_⟩
    have key : ∀ (l : List ℕ) (v0 : K),
        let v := l.foldl (fun v j => (List.range M).foldl (fun v i =>
          if v < |a.get (off + (i + j * lda))| then |a.get (off + (i + j * lda))| else v) v) v0
        v0 ≤ v ∧ (∀ j ∈ l, ∀ i < M, |a.get (off + (i + j * lda))| ≤ v) ∧
          (v = v0 ∨ ∃ j ∈ l, ∃ i < M, v = |a.get (off + (i + j * lda))|) := by
      intro l
      induction l with
      | nil => intro v0; simp
      | cons j l ih =>
        intro v0
        obtain ⟨a1, a2, a3⟩ := fold_max (List.range M) (fun i => |a.get (off + (i + j * lda))|) v0
        obtain ⟨h1, h2, h3⟩ := ih ((List.range M).foldl (fun v i =>
          if v < |a.get (off + (i + j * lda))| then |a.get (off + (i + j * lda))| else v) v0)
        simp only [List.foldl_cons]
        refine ⟨le_trans a1 h1, ?_, ?_⟩
        · intro b hb i hi
          rcases List.mem_cons.1 hb with rfl | hb
          · exact le_trans (a2 i (List.mem_range.2 hi)) h1
          · exact h2 b hb i hi
        · rcases h3 with h3 | ⟨b, hb, i, hi, h3⟩
          · rw [h3]
            rcases a3 with a3 | ⟨i, hi, a3⟩
            · left; exact a3
            · right; exact ⟨j, List.mem_cons_self, i, List.mem_range.1 hi, a3⟩
          · right; exact ⟨b, List.mem_cons_of_mem _ hb, i, hi, h3⟩
    obtain ⟨h1, h2, h3⟩ := key (List.range N) 0
    refine ⟨fun j hj i hi => h2 j (List.mem_range.2 hj) i hi, Or.inr ?_⟩
    rcases h3 with h3 | ⟨j, hj, i, hi, h3⟩
    · refine ⟨0, by omega, 0, by omega, ?_⟩
      have := h2 0 (List.mem_range.2 (by omega)) 0 (by omega)
      rw [h3] at this ⊢
      exact le_antisymm (abs_nonneg _) this
    · exact ⟨j, List.mem_range.1 hj, i, hi, h3⟩

theorem IsMaxAbs.congr {v : K} {m n : ℕ} {f g : ℕ → ℕ → K} (h : IsMaxAbs v m n f)
    (e : ∀ i < m, ∀ j < n, f i j = g i j) : IsMaxAbs v m n g := by
  refine ⟨fun i hi j hj => e i hi j hj ▸ h.1 i hi j hj, ?_⟩
  rcases h.2 with h | ⟨i, hi, j, hj, h⟩
  · exact Or.inl h
  · exact Or.inr ⟨i, hi, j, hj, e i hi j hj ▸ h⟩

/-- **C58, `max_abs_value`.** -/
theorem C58_maxAbs (hA : Is A m n f) : ∃ v, maxAbs A = some v ∧ IsMaxAbs v m n f := by
  unfold maxAbs
  rw [hA.hm, hA.hn]
  obtain ⟨v, h1, h2⟩ := dlange_spec n m A.arr 0 n (by
    have := fits_of hA.cap_le hA.size
    unfold fits at this
    omega)
  refine ⟨v, h1, h2.congr fun i hi j hj => ?_⟩
  rw [Nat.zero_add, Nat.add_comm, hA.get hi hj]

/-- **C58, `row_max_abs_value`.** -/
theorem C58_rowMaxAbs (hA : Is A m n f) (v : Arr K) (hv : v.size = m) :
    ∃ v', rowMaxAbs A v = some v' ∧ v'.size = m ∧
      ∀ i < m, IsMaxAbs (v'.get i) 1 n fun _ j => f i j := by
  unfold rowMaxAbs
  rw [hA.hm, hA.hn, if_pos hv.symm]
  have key : ∀ i < m, ∃ w, dlange 1 n A.arr (i * n) 1 = some w ∧ IsMaxAbs w 1 n fun _ j => f i j := by
    intro i hi
    have e := row_end (N := n) (lt_of_lt_of_le hi hA.cap_le)
    rw [← hA.size] at e
    obtain ⟨w, h1, h2⟩ := dlange_spec 1 n A.arr (i * n) 1 (by omega)
    refine ⟨w, h1, ⟨fun _ _ j hj => ?_, ?_⟩⟩
    · have := h2.1 j hj 0 (by omega)
      simp only at this
      rwa [Nat.zero_add, Nat.mul_one, hA.get hi hj] at this
    · rcases h2.2 with h | ⟨j, hj, _, _, h⟩
      · exact Or.inl ⟨h.1, by omega⟩
      · refine Or.inr ⟨0, by omega, j, hj, ?_⟩
        rename_i q hq
        obtain rfl : q = 0 := by omega
        simp only at h
        rwa [Nat.zero_add, Nat.mul_one, hA.get hi hj] at h
  choose! w hw1 hw2 using key
  obtain ⟨t, h1, h2, h3, -⟩ := loop_over (k := m) (s := v) (fun i q => q = i) (fun i _ => w i)
    (body := fun i a => (dlange 1 n A.arr (i * n) 1).bind fun w => a.set i w)
    (by intro i _ j _ q a b; omega) (by
      intro i hi t ht _
      rw [hw1 i hi]
      simp only [Option.bind_some]
      refine ⟨_, set_some (by omega) _, ht, ?_, ?_⟩
      · rintro q rfl; simp
      · intro q hq; simp only; rw [if_neg hq])
  exact ⟨t, h1, by rw [h2, hv], fun i hi => by rw [h3 i hi i rfl]; exact hw2 i hi⟩

/-- Nested loops that copy entries `(c, r)` to `(r, c)`, no entry being both read and written. -/
theorem mirror_loops (hA : Is A n n f) {N : ℕ} (cnt : ℕ → ℕ) (R C : ℕ → ℕ → ℕ)
    (hR : ∀ i < N, ∀ l < cnt i, R i l < n) (hC : ∀ i < N, ∀ l < cnt i, C i l < n)
    (hinj : ∀ i < N, ∀ l < cnt i, ∀ i' < N, ∀ l' < cnt i', R i l = R i' l' → C i l = C i' l' →
      i = i' ∧ l = l')
    (hsep : ∀ i < N, ∀ l < cnt i, ∀ i' < N, ∀ l' < cnt i', R i l = C i' l' → C i l = R i' l' → False) :
    ∃ A', (loop (fun i a => loop (fun l a => mirrorAt A a (R i l) (C i l)) (cnt i) a) N A.arr).map
        A.put = some A' ∧ A'.cap = A.cap ∧ A'.Ok ∧ A'.m = n ∧ A'.n = n ∧
      (∀ i < N, ∀ l < cnt i, A'.at (R i l) (C i l) = f (C i l) (R i l)) ∧
      ∀ r < n, ∀ c < n, (∀ i < N, ∀ l < cnt i, ¬ (r = R i l ∧ c = C i l)) → A'.at r c = f r c := by
  have hsz := hA.size
  obtain ⟨t, h1, h2, h3, h4⟩ := loop_over (k := N) (s := A.arr)
    (fun i q => ∃ l < cnt i, q = R i l * n + C i l) (fun _ q => f (q % n) (q / n))
    (body := fun i a => loop (fun l a => mirrorAt A a (R i l) (C i l)) (cnt i) a) (by
      rintro i hi i' hi' q ⟨l, hl, rfl⟩ ⟨l', hl', h⟩
      have := (pos_inj (hC i hi l hl) (hC i' hi' l' hl')).1 h
      exact (hinj i hi l hl i' hi' l' hl' this.1 this.2).1) (by
      intro i hi t ht hinv
      obtain ⟨u, b1, b2, b3, b4⟩ := loop_over (k := cnt i) (s := t)
        (fun l q => q = R i l * n + C i l) (fun l _ => f (C i l) (R i l))
        (body := fun l a => mirrorAt A a (R i l) (C i l)) (by
          rintro l hl l' hl' q rfl h
          have := (pos_inj (hC i hi l hl) (hC i hi l' hl')).1 h
          exact (hinj i hi l hl i hi l' hl' this.1 this.2).2) (by
          intro l hl u hu hinv'
          have r1 := hR i hi l hl
          have c1 := hC i hi l hl
          have p1 := pos_lt_cap c1 r1 hA.cap_le
          have p2 := pos_lt_cap r1 c1 hA.cap_le
          rw [← hsz, ← ht, ← hu] at p1 p2
          unfold mirrorAt
          simp only [hA.row r1, hA.row c1]
          rw [read_some p1]
          simp only [Option.bind_some]
          rw [set_some p2]
          refine ⟨_, rfl, hu, ?_, ?_⟩
          · rintro q rfl
            simp only [if_true]
            rw [hinv' _ (by
              intro l' hl' h
              have := (pos_inj r1 (hC i hi l' (by omega))).1 h
              exact hsep i hi l hl i hi l' (by omega) this.2 this.1), hinv _ (by
              rintro i' hi' ⟨l', hl', h⟩
              have := (pos_inj r1 (hC i' (by omega) l' hl')).1 h
              exact hsep i hi l hl i' (by omega) l' hl' this.2 this.1), hA.get c1 r1]
          · intro q hq
            simp only
            rw [if_neg hq])
      refine ⟨u, b1, by rw [b2, ht], ?_, ?_⟩
      · rintro q ⟨l, hl, rfl⟩
        rw [b3 l hl _ rfl, pos_mod (hC i hi l hl), pos_div (hC i hi l hl)]
      · intro q hq
        exact b4 q fun l hl h => hq ⟨l, hl, h⟩)
  have hat : ∀ r c, (A.put t).at r c = t.get (r * n + c) := by
    intro r c
    show t.get (r * A.n + c) = _
    rw [hA.hn]
  refine ⟨A.put t, congrArg (Option.map A.put) h1, rfl, hA.ok, hA.hm, hA.hn, ?_, ?_⟩
  · intro i hi l hl
    rw [hat, h3 i hi _ ⟨l, hl, rfl⟩, pos_mod (hC i hi l hl), pos_div (hC i hi l hl)]
  · intro r hr c hc h
    rw [hat, h4 _ (by
      rintro i hi ⟨l, hl, e⟩
      have := (pos_inj hc (hC i hi l hl)).1 e
      exact h i hi l hl this), hA.get hr hc]

/-- **C58, `symmetrize`.** The upper triangle is kept and copied to the lower one; the result is
symmetric. -/
theorem C58_symmetrize (hA : Is A n n f) :
    ∃ A', symmetrize A = some A' ∧ A'.cap = A.cap ∧
      Is A' n n fun i j => if i ≤ j then f i j else f j i := by
  obtain ⟨A', h1, h2, h3, h4, h5, h6, h7⟩ := mirror_loops hA (N := n) (fun i => n - (i + 1))
    (fun i l => i + 1 + l) (fun i _ => i) (fun i hi l hl => by omega) (fun i hi l hl => hi)
    (fun i hi l hl i' hi' l' hl' e1 e2 => by omega)
    (fun i hi l hl i' hi' l' hl' e1 e2 => by omega)
  refine ⟨A', ?_, h2, h3, h4, h5, fun i hi j hj => ?_⟩
  · unfold symmetrize
    rw [hA.hm, hA.hn, if_pos rfl]
    exact h1
  · by_cases h : i ≤ j
    · rw [if_pos h, h7 i hi j hj (by intro i' hi' l hl; omega)]
    · rw [if_neg h]
      have := h6 j hj (i - (j + 1)) (by omega)
      rwa [show j + 1 + (i - (j + 1)) = i by omega] at this

/-- **C58, `overwriteUpperTriangleWithLower`.** -/
theorem C58_upperWithLower (hA : Is A n n f) :
    ∃ A', upperWithLower A = some A' ∧ A'.cap = A.cap ∧
      Is A' n n fun i j => if j ≤ i then f i j else f j i := by
  obtain ⟨A', h1, h2, h3, h4, h5, h6, h7⟩ := mirror_loops hA (N := n) (fun i => n - (i + 1))
    (fun i _ => i) (fun i l => i + 1 + l) (fun i hi l hl => hi) (fun i hi l hl => by omega)
    (fun i hi l hl i' hi' l' hl' e1 e2 => by omega)
    (fun i hi l hl i' hi' l' hl' e1 e2 => by omega)
  refine ⟨A', ?_, h2, h3, h4, h5, fun i hi j hj => ?_⟩
  · unfold upperWithLower
    rw [hA.hm, hA.hn]
    exact h1
  · by_cases h : j ≤ i
    · rw [if_pos h, h7 i hi j hj (by intro i' hi' l hl; omega)]
    · rw [if_neg h]
      have := h6 i hi (j - (i + 1)) (by omega)
      rwa [show i + 1 + (j - (i + 1)) = j by omega] at this

/-- **C58, `overwriteLowerTriangleWithUpper`.** -/
theorem C58_lowerWithUpper (hA : Is A n n f) :
    ∃ A', lowerWithUpper A = some A' ∧ A'.cap = A.cap ∧
      Is A' n n fun i j => if i ≤ j then f i j else f j i := by
  obtain ⟨A', h1, h2, h3, h4, h5, h6, h7⟩ := mirror_loops hA (N := n) (fun i => i)
    (fun i _ => i) (fun _ l => l) (fun i hi l hl => hi) (fun i hi l hl => by omega)
    (fun i hi l hl i' hi' l' hl' e1 e2 => by omega)
    (fun i hi l hl i' hi' l' hl' e1 e2 => by omega)
  refine ⟨A', ?_, h2, h3, h4, h5, fun i hi j hj => ?_⟩
  · unfold lowerWithUpper
    rw [hA.hm]
    exact h1
  · by_cases h : i ≤ j
    · rw [if_pos h, h7 i hi j hj (by intro i' hi' l hl; omega)]
    · rw [if_neg h]
      exact h6 i hi j (by omega)

/-! ## Concrete cases -/

/-- A 2 × 3 matrix in storage for 4 rows, as the constructor makes it, then filled:
rows `1 2 3` and `4 5 6`. -/
def exA : DMat ℚ := ⟨2, 3, 4, fun q => q + 1, false⟩

/-- A 3 × 3 matrix with rows `0 1 2`, `3 4 5` and `6 7 8`. -/
def exS : DMat ℚ := ⟨3, 3, 3, fun q => q, false⟩

theorem exA_is : Is exA 2 3 fun i j => (i * 3 + j : ℕ) + 1 :=
  ⟨⟨by decide, by decide, by decide⟩, rfl, rfl, fun _ _ _ _ => rfl⟩

theorem exS_is : Is exS 3 3 fun i j => ((i * 3 + j : ℕ) : ℚ) :=
  ⟨⟨by decide, by decide, by decide⟩, rfl, rfl, fun _ _ _ _ => rfl⟩

/-- The entries of a matrix, row by row. -/
def entries (A : DMat ℚ) : List (List ℚ) :=
  (List.range A.m).map fun i => (List.range A.n).map fun j => A.at i j

/-- Products. -/
example : (timesVec exA 2 ⟨2, fun _ => 1⟩ 10 ⟨3, fun j => j⟩).map (fun y => (y.get 0, y.get 1))
    = some (82, 172) := by decide +kernel

example : (transTimesVec exA 1 ⟨3, fun _ => 0⟩ 1 ⟨2, fun j => j⟩).map
    (fun y => [y.get 0, y.get 1, y.get 2]) = some [4, 5, 6] := by decide +kernel

example : (timesMat true exA 1 ⟨2, 3, 2, fun _ => 1, false⟩ 1 exS).map entries
    = some [[25, 31, 37], [52, 67, 82]] := by decide +kernel

example : (transTimesMat exS 0 ⟨3, 3, 3, fun _ => 7, false⟩ 1 exS).map entries
    = some [[45, 54, 63], [54, 66, 78], [63, 78, 93]] := by decide +kernel

example : (timesMatTrans exA 0 ⟨2, 3, 2, fun _ => 7, false⟩ 1 exS).map entries
    = some [[8, 26, 44], [17, 62, 107]] := by decide +kernel

/-- Copies, shifts, triangles. -/
example : (appendRow exA ⟨3, fun _ => 9⟩).map entries = some [[1, 2, 3], [4, 5, 6], [9, 9, 9]] := by
  decide +kernel

example : (copyBlock exS 1 1 ⟨2, 2, 2, fun _ => 9, false⟩).map entries
    = some [[0, 1, 2], [3, 9, 9], [6, 9, 9]] := by decide +kernel

example : (shiftRows exS (-1)).map entries = some [[3, 4, 5], [6, 7, 8], [6, 7, 8]] := by
  decide +kernel

example : (shiftRows exS 1).map entries = some [[0, 1, 2], [0, 1, 2], [3, 4, 5]] := by
  decide +kernel

example : (symmetrize exS).map entries = some [[0, 1, 2], [1, 4, 5], [2, 5, 8]] := by
  decide +kernel

example : (upperWithLower exS).map entries = some [[0, 3, 6], [3, 4, 7], [6, 7, 8]] := by
  decide +kernel

/-- Sums: the matrix `exS` added above the diagonal of a zero matrix, `exA` transposed added to the
block that starts at row 0 and column 3. -/
example : (addUpperTo exS 0 1 ⟨3, 3, 3, fun _ => 0, false⟩).map entries
    = some [[0, 1, 2], [0, 4, 5], [0, 0, 8]] := by decide +kernel

example : (transAddTo exA 0 3 2 ⟨5, 5, 5, fun _ => 0, false⟩).map entries
    = some [[0, 0, 0, 2, 8], [0, 0, 0, 4, 10], [0, 0, 0, 6, 12], [0, 0, 0, 0, 0],
      [0, 0, 0, 0, 0]] := by decide +kernel

example : maxAbs exA = some 6 := by decide +kernel

example : (scaleRow exA ⟨2, fun i => i + 2⟩ true).map entries
    = some [[1 / 2, 1, 3 / 2], [4 / 3, 5 / 3, 2]] := by decide +kernel

example : (setHessFR ⟨3, 3, 3, fun _ => 7, false⟩ exS ⟨3, fun _ => 1⟩).map entries
    = some [[1, 1, 2], [3, 5, 5], [6, 7, 9]] := by decide +kernel

end Hiop.DenseMat
