import Verif.Mpi.Lemmas
import Verif.Nlp.Bounds

/-!
# C34: results on any number of ranks are those on one rank

`P` ranks hold a vector or a matrix split by `p` (any offsets, empty pieces allowed). Each theorem
says: whatever order `MPI_Allreduce` combines the contributions in, every rank obtains exactly the
value the serial operation has on the whole object. Each statement is an equivalence, so the
distributed operation is also shown to have an outcome.
-/

namespace Hiop.Mpi

open Hiop.Vec Hiop.Iterate Hiop.Kkt

set_option linter.unusedSectionVars false

variable {N P mc m : ℕ} {p : Part N P}
variable {K : Type*} [Field K] [LinearOrder K] [IsStrictOrderedRing K]

/-! ## Suprema and infima over the ranks -/

theorem exists_rank_of_infnorm (p : Part N P) (x : RVec K N) (r : Fin P) :
    ∃ s, infnorm x ≤ infnorm (scatter p x s) := by
  rcases infnorm_attained x with ⟨-, h⟩ | ⟨j, h⟩
  · exact ⟨r, by rw [h]; exact infnorm_nonneg _⟩
  · obtain ⟨s, i, rfl⟩ := p.exists_idx j
    exact ⟨s, by rw [h]; exact infnorm_ge (scatter p x s) i⟩

theorem infnorm_scatter_le (p : Part N P) (x : RVec K N) (r : Fin P) :
    infnorm (scatter p x r) ≤ infnorm x :=
  (infnorm_le_iff _ _ (infnorm_nonneg x)).2 fun i => infnorm_ge x (p.idx r i)

/-! ## Vectors -/

/-- **C34.** Inner product. -/
theorem C34_dot (x y : RVec K N) (out : Fin P → K) :
    dotD (scatter p x) (scatter p y) out ↔ ∀ r, out r = dot x y := by
  unfold dotD
  rw [allreduce_sum]
  have : ∑ s, dot (scatter p x s) (scatter p y s) = dot x y := by
    rw [dot_eq_sum, ← sum_scatter p]
    exact Finset.sum_congr rfl fun s _ => dot_eq_sum _ _
  rw [this]

/-- **C34.** 1-norm. -/
theorem C34_onenorm (x : RVec K N) (out : Fin P → K) :
    onenormD (scatter p x) out ↔ ∀ r, out r = onenorm x := by
  unfold onenormD
  rw [allreduce_sum]
  have : ∑ s, onenorm (scatter p x s) = onenorm x := by
    rw [onenorm_eq_sum, ← sum_scatter p]
    exact Finset.sum_congr rfl fun s _ => onenorm_eq_sum _
  rw [this]

/-- **C34.** 2-norm. -/
theorem C34_twonorm (p : Part N P) (x : RVec ℝ N) (out : Fin P → ℝ) :
    twonormD (scatter p x) out ↔ ∀ r, out r = QN.twonorm x := by
  have hc : ∀ s : Fin P, (let nrm := if p.len s > 0 then QN.twonorm (scatter p x s) else 0; nrm * nrm)
      = dot (scatter p x s) (scatter p x s) := by
    intro s
    have hn : 0 ≤ dot (scatter p x s) (scatter p x s) := by
      rw [dot_eq_sum]; exact Finset.sum_nonneg fun i _ => mul_self_nonneg _
    by_cases h : p.len s > 0
    · simp only [h, if_true, QN.twonorm]
      exact Real.mul_self_sqrt hn
    · simp only [h, if_false, mul_zero]
      rw [dot_eq_sum]
      symm
      apply Finset.sum_eq_zero
      intro i
      exact absurd i.isLt (by omega)
  unfold twonormD
  simp only [hc]
  have hd := C34_dot (p := p) x x
  unfold dotD at hd
  constructor
  · rintro ⟨g, hg, ho⟩ r
    rw [ho r, (hd g).1 hg r]; rfl
  · intro h
    exact ⟨fun _ => dot x x, (hd _).2 fun _ => rfl, fun r => by rw [h r]; rfl⟩

/-- **C34.** Largest absolute value. -/
theorem C34_infnorm (x : RVec K N) (out : Fin P → K) :
    infnormD (scatter p x) out ↔ ∀ r, out r = infnorm x :=
  allreduce_max _ _ (infnorm_scatter_le p x) (exists_rank_of_infnorm p x) out

/-- **C34.** Smallest entry selected by a pattern. -/
theorem C34_min_sel (dblMax : K) (x sel : RVec K N) (out : Fin P → K) :
    minSelD dblMax (scatter p x) (scatter p sel) out ↔ ∀ r, out r = minSel dblMax x sel := by
  obtain ⟨h1, h2, h3⟩ := minSel_char dblMax x sel
  apply allreduce_min
  · intro s
    obtain ⟨-, -, g3⟩ := minSel_char dblMax (scatter p x s) (scatter p sel s)
    rcases g3 with g | ⟨i, hi, g⟩
    · rw [g]; exact h1
    · rw [g]; exact h2 (p.idx s i) hi
  · intro r
    rcases h3 with h | ⟨j, hj, h⟩
    · exact ⟨r, by rw [h]; exact (minSel_char dblMax (scatter p x r) (scatter p sel r)).1⟩
    · obtain ⟨s, i, rfl⟩ := p.exists_idx j
      exact ⟨s, by rw [h]; exact (minSel_char dblMax (scatter p x s) (scatter p sel s)).2.1 i hj⟩

/-- **C34.** Smallest entry. -/
theorem C34_min (dblMax : K) (x : RVec K N) (out : Fin P → K) :
    minAllD dblMax (scatter p x) out ↔ ∀ r, out r = minAll dblMax x := by
  obtain ⟨h1, h2, h3⟩ := minAll_char dblMax x
  apply allreduce_min
  · intro s
    obtain ⟨-, -, g3⟩ := minAll_char dblMax (scatter p x s)
    rcases g3 with g | ⟨i, g⟩
    · rw [g]; exact h1
    · rw [g]; exact h2 (p.idx s i)
  · intro r
    rcases h3 with h | ⟨j, h⟩
    · exact ⟨r, by rw [h]; exact (minAll_char dblMax (scatter p x r)).1⟩
    · obtain ⟨s, i, rfl⟩ := p.exists_idx j
      exact ⟨s, by rw [h]; exact (minAll_char dblMax (scatter p x s)).2.1 i⟩

/-- Something holds at every index if and only if it holds at every local index of every rank. -/
theorem forall_idx (p : Part N P) (Q : Fin N → Prop) :
    (∀ j, Q j) ↔ ∀ (r : Fin P) (i : Fin (p.len r)), Q (p.idx r i) := by
  constructor
  · exact fun h r i => h _
  · intro h j
    obtain ⟨r, i, rfl⟩ := p.exists_idx j
    exact h r i

/-- **C34.** Positivity test. -/
theorem C34_all_positive (x : RVec K N) (out : Fin P → Bool) :
    allPositiveD (scatter p x) out ↔ ∀ r, out r = allPositive x := by
  apply flag_min
  simp only [allPositive_iff]
  exact forall_idx p _

/-- **C34.** Positivity test on a pattern. -/
theorem C34_all_positive_sel (x w : RVec K N) (out : Fin P → Bool) :
    allPositiveSelD (scatter p x) (scatter p w) out ↔ ∀ r, out r = allPositiveSel x w := by
  apply flag_min
  simp only [allPositiveSel_iff]
  exact forall_idx p _

/-- **C34.** Pattern test. -/
theorem C34_matches_pattern (x w : RVec K N) (out : Fin P → Bool) :
    matchesPatternD (scatter p x) (scatter p w) out ↔ ∀ r, out r = matchesPattern x w := by
  apply flag_land
  simp only [matchesPattern_iff]
  exact forall_idx p _

theorem isZero_iff {n : ℕ} (x : RVec K n) : isZero x = true ↔ ∀ i, x i = 0 := by
  unfold isZero
  rw [foldl_all (fun i : Fin n => x i ≠ 0)]
  simp

/-- **C34.** Zero test. -/
theorem C34_is_zero (x : RVec K N) (out : Fin P → Bool) :
    isZeroD (scatter p x) out ↔ ∀ r, out r = decide (∀ j, x j = 0) := by
  apply flag_min
  simp only [isZero_iff, decide_eq_true_eq]
  exact forall_idx p _

theorem card_scatter (p : Part N P) (Q : Fin N → Prop) [DecidablePred Q] :
    ∑ r : Fin P, (Finset.univ.filter fun i : Fin (p.len r) => Q (p.idx r i)).card
      = (Finset.univ.filter Q).card := by
  simp only [Finset.card_filter]
  exact sum_scatter p fun j => if Q j then 1 else 0

theorem numAbsLessThan_eq {n : ℕ} (x : RVec K n) (v : K) :
    numAbsLessThan x v = (Finset.univ.filter fun i => |x i| < v).card :=
  numLessThan_eq (fun i => |x i|) v

/-- **C34.** Number of entries below a value. -/
theorem C34_num_less (x : RVec K N) (v : K) (out : Fin P → ℕ) :
    numLessThanD (scatter p x) v out ↔ ∀ r, out r = numLessThan x v := by
  unfold numLessThanD
  rw [allreduce_sum]
  have : ∑ s, numLessThan (scatter p x s) v = numLessThan x v := by
    simp only [numLessThan_eq]
    exact card_scatter p fun j => x j < v
  rw [this]

/-- **C34.** Number of entries of absolute value below a value. -/
theorem C34_num_abs_less (x : RVec K N) (v : K) (out : Fin P → ℕ) :
    numAbsLessThanD (scatter p x) v out ↔ ∀ r, out r = numAbsLessThan x v := by
  unfold numAbsLessThanD
  rw [allreduce_sum]
  have : ∑ s, numAbsLessThan (scatter p x s) v = numAbsLessThan x v := by
    simp only [numAbsLessThan_eq]
    exact card_scatter p fun j => |x j| < v
  rw [this]

theorem isEqual_iff {n : ℕ} (x y : RVec K n) : isEqual x y = true ↔ x = y := by
  unfold isEqual
  rw [foldl_all (fun i : ℕ => (if h : i < n then x ⟨i, h⟩ else 0) ≠ (if h : i < n then y ⟨i, h⟩ else 0))]
  simp only [Bool.true_and, decide_eq_true_eq, List.mem_range, ne_eq, not_not]
  constructor
  · intro h
    funext i
    have := h i.val i.isLt
    simpa using this
  · rintro rfl i _; rfl

open Classical in
/-- **C34.** Equality of vectors with the same distribution: the call completes, and every rank
learns whether the two whole vectors are equal. -/
theorem C34_is_equal (x y : RVec K N) (c : Call (Fin P → Bool)) :
    isEqualD (scatter p x) (scatter p y) c ↔
      (0 < P ∧ ∃ out, c = .done out ∧ ∀ r, out r = decide (x = y)) ∨ (P = 0 ∧ ∃ out, c = .done out) := by
  have hx : decide (x = y) = true ↔ ∀ s, isEqual (scatter p x s) (scatter p y s) = true := by
    simp only [isEqual_iff, decide_eq_true_eq]
    constructor
    · rintro rfl s; rfl
    · intro h
      funext j
      obtain ⟨s, i, rfl⟩ := p.exists_idx j
      exact congrFun (h s) i
  cases c with
  | hang =>
    constructor
    · rintro ⟨⟨r, h⟩, -⟩; exact absurd rfl h
    · rintro (⟨-, o, h, -⟩ | ⟨-, o, h⟩) <;> exact absurd h (by simp)
  | done out =>
    simp only [isEqualD, ne_eq, not_true_eq_false, false_and, implies_true, true_and]
    have := flag_min (fun r => isEqual (scatter p x r) (scatter p y r)) (decide (x = y)) hx out
    simp only [ne_eq] at this
    rw [this]
    rcases Nat.eq_zero_or_pos P with h | h
    · subst h
      simp
    · have : (∀ _ : Fin P, False) ↔ False := ⟨fun f => f ⟨0, h⟩, fun f => f.elim⟩
      simp only [this, false_or, h, true_and, Call.done.injEq, exists_eq_left', h.ne']
      simp

/-- A distribution of four entries over three ranks... -/
def partA : Part 4 3 where
  off := fun r => [0, 2, 3, 4].getD r 4
  zero := rfl
  last := rfl
  mono := by
    apply monotone_nat_of_le_succ
    intro r
    rcases r with _ | _ | _ | _ | r <;> simp

/-- ...and one with different pieces on the first two ranks. -/
def partB : Part 4 3 where
  off := fun r => [0, 1, 3, 4].getD r 4
  zero := rfl
  last := rfl
  mono := by
    apply monotone_nat_of_le_succ
    intro r
    rcases r with _ | _ | _ | _ | r <;> simp

/-- **C34 (violated).** With different distributions of the same vector some ranks return `false`
while another waits in the collective call: the test does not complete on all ranks, although the
vectors are equal. -/
theorem C34_is_equal_hang :
    isEqualD (scatter partA (fun _ : Fin 4 => (1 : ℚ))) (scatter partB fun _ => 1) .hang ∧
    ∀ out, ¬ isEqualD (scatter partA (fun _ : Fin 4 => (1 : ℚ))) (scatter partB fun _ => 1)
      (.done out) := by
  refine ⟨⟨⟨0, by decide⟩, ⟨2, by decide⟩⟩, fun out h => ?_⟩
  rcases h with h | ⟨h, -⟩
  · exact (h 2).1 (by decide)
  · exact absurd (h 0) (by decide)

/-- **C34.** Operations entry by entry need no communication: the pieces of the result are the
results on the pieces. -/
theorem C34_elementwise (p : Part N P) (a b : K) (x y z w : RVec K N) (r : Fin P) :
    scatter p (axpy x a y) r = axpy (scatter p x r) a (scatter p y r) ∧
    scatter p (scale x a) r = scale (scatter p x r) a ∧
    scatter p (addConstant x a) r = addConstant (scatter p x r) a ∧
    scatter p (negate x) r = negate (scatter p x r) ∧
    scatter p (componentMult x y) r = componentMult (scatter p x r) (scatter p y r) ∧
    scatter p (componentDivSel x y z) r
      = componentDivSel (scatter p x r) (scatter p y r) (scatter p z r) ∧
    scatter p (Vec.selectPattern x y) r = Vec.selectPattern (scatter p x r) (scatter p y r) ∧
    scatter p (axzpy x a y z) r = axzpy (scatter p x r) a (scatter p y r) (scatter p z r) ∧
    scatter p (axdzpySel x a y z w) r
      = axdzpySel (scatter p x r) a (scatter p y r) (scatter p z r) (scatter p w r) ∧
    scatter p (addConstantSel x a y) r = addConstantSel (scatter p x r) a (scatter p y r) ∧
    scatter p (setToConstantSel a x) r = setToConstantSel a (scatter p x r) ∧
    scatter p (addLogBarrierGrad x a y z) r
      = addLogBarrierGrad (scatter p x r) a (scatter p y r) (scatter p z r) ∧
    scatter p (addLinearDampingTerm x y z a b) r
      = addLinearDampingTerm (scatter p x r) (scatter p y r) (scatter p z r) a b :=
  ⟨rfl, by unfold scale; split_ifs <;> rfl, rfl, rfl, rfl, rfl, rfl,
    by unfold axzpy; split_ifs <;> rfl, by unfold axdzpySel; split_ifs <;> rfl, rfl, rfl, rfl, rfl⟩

/-! ## Matrices distributed by columns -/

theorem sum_rank_zero {A : Type*} [AddCommMonoid A] (hP : 0 < P) (f : Fin P → A)
    (h : ∀ r : Fin P, r.val ≠ 0 → f r = 0) : ∑ r, f r = f ⟨0, hP⟩ :=
  Finset.sum_eq_single _ (fun r _ hr => h r fun h0 => hr (Fin.ext h0))
    (fun h => absurd (Finset.mem_univ _) h)

theorem timesVecLocal_eq {n : ℕ} (rank : ℕ) (A : Matrix (Fin m) (Fin n) K) (beta : K) (y : RVec K m)
    (alpha : K) (x : RVec K n) (i : Fin m) :
    timesVecLocal rank A beta y alpha x i
      = (if rank ≠ 0 then 0 else beta) * y i + alpha * ∑ j, A i j * x j := by
  unfold timesVecLocal
  generalize (if rank ≠ 0 then (0 : K) else beta) = b
  by_cases hn : n ≠ 0
  · simp only [hn, ne_eq, not_false_eq_true, if_true]
    rfl
  · have hn' : n = 0 := by omega
    subst hn'
    by_cases hb : b ≠ 1
    · simp [hb, Ne.symm hb, scale]
    · have : b = 1 := by simpa using hb
      simp [this]

/-- **C34.** `y := beta*y + alpha*A*x` with the columns of `A` and the entries of `x` distributed:
every rank obtains the serial result for the vector `y` held by rank 0. -/
theorem C34_times_vec (hP : 0 < P) (A : Matrix (Fin m) (Fin N) K) (beta : K) (y : Fin P → RVec K m)
    (alpha : K) (x : RVec K N) (out : Fin P → RVec K m) :
    timesVecD (scatterCols p A) beta y alpha (scatter p x) out ↔
      ∀ r, out r = timesVec A beta (y ⟨0, hP⟩) alpha x := by
  unfold timesVecD
  rw [show (fun (a b : RVec K m) i => a i + b i) = (· + ·) from rfl, allreduce_sum]
  have : ∑ s : Fin P, timesVecLocal s (scatterCols p A s) beta (y s) alpha (scatter p x s)
      = timesVec A beta (y ⟨0, hP⟩) alpha x := by
    funext i
    rw [Finset.sum_apply]
    simp only [timesVecLocal_eq]
    rw [Finset.sum_add_distrib, ← Finset.mul_sum]
    unfold timesVec
    congr 1
    · rw [sum_rank_zero hP]
      · simp
      · intro r hr; simp [hr]
    · congr 1
      exact sum_scatter p fun j => A i j * x j
  rw [this]

/-- **C34.** `y := beta*y + alpha*A'*x`: each rank computes its piece of the serial result. -/
theorem C34_trans_times_vec (A : Matrix (Fin m) (Fin N) K) (beta : K) (y : RVec K N)
    (alpha : K) (x : RVec K m) :
    transTimesVecD (scatterCols p A) beta (scatter p y) alpha (fun _ => x)
      = scatter p (transTimesVec A beta y alpha x) := rfl

/-- **C34.** `W := beta*W + alpha*A*X'` with the columns of `A` and `X` distributed. -/
theorem C34_times_mat_trans {k : ℕ} (hP : 0 < P) (beta : K) (W : Fin P → Matrix (Fin m) (Fin k) K)
    (alpha : K) (A : Matrix (Fin m) (Fin N) K) (X : Matrix (Fin k) (Fin N) K)
    (out : Fin P → Matrix (Fin m) (Fin k) K) :
    timesMatTransD beta W alpha (scatterCols p A) (scatterCols p X) out ↔
      ∀ r, out r = beta • W ⟨0, hP⟩ + alpha • (A * X.transpose) := by
  unfold timesMatTransD
  change Allreduce (A := Matrix (Fin m) (Fin k) K) (· + ·) _ out ↔ _
  rw [allreduce_sum]
  have hloc : ∀ (n : ℕ) (b : K) (W : Matrix (Fin m) (Fin k) K) (A : Matrix (Fin m) (Fin n) K)
      (X : Matrix (Fin k) (Fin n) K) (i : Fin m) (j : Fin k),
      timesMatTransLocal b W alpha A X i j = b * W i j + alpha * ∑ t, A i t * X j t := by
    intro n b W A X i j
    change (if n = 0 then (if b ≠ 1 then b * W i j else W i j)
      else alpha * (A * X.transpose) i j + b * W i j) = _
    by_cases hn : n = 0
    · subst hn
      by_cases hb : b ≠ 1
      · simp [hb]
      · have : b = 1 := by simpa using hb
        simp [this]
    · rw [if_neg hn, add_comm]; rfl
  have : ∑ s : Fin P, (if s.val = 0 then timesMatTransLocal beta (W s) alpha (scatterCols p A s)
        (scatterCols p X s)
      else timesMatTransLocal 0 (W s) alpha (scatterCols p A s) (scatterCols p X s))
      = beta • W ⟨0, hP⟩ + alpha • (A * X.transpose) := by
    funext i j
    have e : ∀ s : Fin P, (if s.val = 0 then timesMatTransLocal beta (W s) alpha (scatterCols p A s)
        (scatterCols p X s)
      else timesMatTransLocal 0 (W s) alpha (scatterCols p A s) (scatterCols p X s)) i j
        = (if s.val = 0 then beta * W s i j else 0)
          + alpha * ∑ t, scatterCols p A s i t * scatterCols p X s j t := by
      intro s
      split
      · rw [hloc]
      · rw [hloc]; simp
    rw [Matrix.sum_apply]
    simp only [e]
    rw [Finset.sum_add_distrib, ← Finset.mul_sum]
    simp only [Matrix.add_apply, Matrix.smul_apply, smul_eq_mul]
    congr 1
    · rw [sum_rank_zero hP]
      · simp
      · intro r hr; simp [hr]
    · congr 1
      exact sum_scatter p fun t => A i t * X j t
  rw [this]

/-- **C34.** Largest absolute value of each row. -/
theorem C34_row_max_abs (A : Matrix (Fin m) (Fin N) K) (out : Fin P → RVec K m) :
    rowMaxAbsD (scatterCols p A) out ↔ ∀ r i, out r i = infnorm (A i) := by
  unfold rowMaxAbsD
  constructor
  · intro h r i
    exact (C34_infnorm (p := p) (A i) (fun r => out r i)).1 (h i) r
  · intro h i
    exact (C34_infnorm (p := p) (A i) (fun r => out r i)).2 fun r => h r i

theorem maxAbsLocal_le {n : ℕ} (A : Matrix (Fin m) (Fin n) K) (c : K) (hc : 0 ≤ c) :
    maxAbsLocal A ≤ c ↔ ∀ i j, |A i j| ≤ c := by
  unfold maxAbsLocal
  rw [infnorm_le_iff _ _ hc]
  refine forall_congr' fun i => ?_
  rw [abs_of_nonneg (infnorm_nonneg _), infnorm_le_iff _ _ hc]

theorem maxAbsLocal_nonneg {n : ℕ} (A : Matrix (Fin m) (Fin n) K) : 0 ≤ maxAbsLocal A :=
  infnorm_nonneg _

theorem maxAbsLocal_attained {n : ℕ} (A : Matrix (Fin m) (Fin n) K) :
    maxAbsLocal A = 0 ∨ ∃ i j, maxAbsLocal A = |A i j| := by
  unfold maxAbsLocal
  rcases infnorm_attained (fun i => infnorm (A i)) with ⟨-, h⟩ | ⟨i, h⟩
  · exact Or.inl h
  · rw [h, abs_of_nonneg (infnorm_nonneg _)]
    rcases infnorm_attained (A i) with ⟨-, h⟩ | ⟨j, h⟩
    · exact Or.inl h
    · exact Or.inr ⟨i, j, h⟩

/-- **C34.** Largest absolute value of a matrix. -/
theorem C34_max_abs (A : Matrix (Fin m) (Fin N) K) (out : Fin P → K) :
    maxAbsD (scatterCols p A) out ↔ ∀ r, out r = maxAbsLocal A := by
  apply allreduce_max
  · intro s
    rw [maxAbsLocal_le _ _ (maxAbsLocal_nonneg A)]
    exact fun i j => (maxAbsLocal_le A _ (maxAbsLocal_nonneg A)).1 le_rfl i (p.idx s j)
  · intro r
    rcases maxAbsLocal_attained A with h | ⟨i, j, h⟩
    · exact ⟨r, by rw [h]; exact maxAbsLocal_nonneg _⟩
    · obtain ⟨s, t, rfl⟩ := p.exists_idx j
      exact ⟨s, by
        rw [h]
        exact (maxAbsLocal_le (scatterCols p A s) _ (maxAbsLocal_nonneg _)).1 le_rfl i t⟩

/-! ## The problem -/

/-- **C34.** The numbers of fixed variables, lower bounds, upper bounds and two-sided bounds known to
every rank are those of the serial bounds processing. -/
theorem C34_bound_counts (tol : K) (xl xu ixl0 ixu0 : RVec K N) (out : Fin P → ℕ × ℕ × ℕ × ℕ) :
    countsD (fun r =>
        let b := Nlp.processBounds tol (scatter p xl r) (scatter p xu r) (scatter p ixl0 r)
          (scatter p ixu0 r)
        (b.nFixed, b.nLow, b.nUpp, b.nLu)) out ↔
      ∀ r, out r =
        (let b := Nlp.processBounds tol xl xu ixl0 ixu0
         (b.nFixed, b.nLow, b.nUpp, b.nLu)) := by
  unfold countsD
  simp only [allreduce_sum]
  obtain ⟨-, -, h3, h4, h5, h6⟩ := Nlp.C12_bounds_classified tol xl xu ixl0 ixu0
  have l := fun r : Fin P => Nlp.C12_bounds_classified tol (scatter p xl r) (scatter p xu r)
    (scatter p ixl0 r) (scatter p ixu0 r)
  have e1 : ∑ r, (Nlp.processBounds tol (scatter p xl r) (scatter p xu r) (scatter p ixl0 r)
      (scatter p ixu0 r)).nFixed = (Nlp.processBounds tol xl xu ixl0 ixu0).nFixed := by
    rw [h6, ← card_scatter p]
    exact Finset.sum_congr rfl fun r _ => (l r).2.2.2.2.2
  have e2 : ∑ r, (Nlp.processBounds tol (scatter p xl r) (scatter p xu r) (scatter p ixl0 r)
      (scatter p ixu0 r)).nLow = (Nlp.processBounds tol xl xu ixl0 ixu0).nLow := by
    rw [h3, ← card_scatter p]
    exact Finset.sum_congr rfl fun r _ => (l r).2.2.1
  have e3 : ∑ r, (Nlp.processBounds tol (scatter p xl r) (scatter p xu r) (scatter p ixl0 r)
      (scatter p ixu0 r)).nUpp = (Nlp.processBounds tol xl xu ixl0 ixu0).nUpp := by
    rw [h4, ← card_scatter p]
    exact Finset.sum_congr rfl fun r _ => (l r).2.2.2.1
  have e4 : ∑ r, (Nlp.processBounds tol (scatter p xl r) (scatter p xu r) (scatter p ixl0 r)
      (scatter p ixu0 r)).nLu = (Nlp.processBounds tol xl xu ixl0 ixu0).nLu := by
    rw [h5, ← card_scatter p (fun i => Nlp.HasLow xl i ∧ Nlp.HasUpp xu i)]
    exact Finset.sum_congr rfl fun r _ => (l r).2.2.2.2.1
  have e : (∑ r, ((Nlp.processBounds tol (scatter p xl r) (scatter p xu r) (scatter p ixl0 r)
      (scatter p ixu0 r)).nLow, (Nlp.processBounds tol (scatter p xl r) (scatter p xu r)
      (scatter p ixl0 r) (scatter p ixu0 r)).nUpp, (Nlp.processBounds tol (scatter p xl r)
      (scatter p xu r) (scatter p ixl0 r) (scatter p ixu0 r)).nLu))
      = ((Nlp.processBounds tol xl xu ixl0 ixu0).nLow, (Nlp.processBounds tol xl xu ixl0 ixu0).nUpp,
        (Nlp.processBounds tol xl xu ixl0 ixu0).nLu) := by
    refine Prod.ext ?_ (Prod.ext ?_ ?_)
    · rw [Prod.fst_sum]; exact e2
    · rw [Prod.snd_sum, Prod.fst_sum]; exact e3
    · rw [Prod.snd_sum, Prod.snd_sum]; exact e4
  simp only [e1, e]
  constructor
  · rintro ⟨g, hg, a, ha, ho⟩ r
    rw [ho r, hg r, ha r]
  · intro h
    exact ⟨fun _ => _, fun _ => rfl, fun _ => _, fun _ => rfl, h⟩

/-- **C34.** The offsets of the reduced space: rank `k` starts at the number of variables before its
first variable that are not fixed. -/
theorem C34_reduced_offsets (fixed : Fin N → Prop) [DecidablePred fixed] (cnt : ℕ → ℕ)
    (hcnt : ∀ r : Fin P, cnt r = (Finset.univ.filter fun i : Fin (p.len r) => fixed (p.idx r i)).card)
    (k : ℕ) (hk : k ≤ P) :
    rsOffsets p.off cnt k
      = (Finset.univ.filter fun j : Fin N => (j : ℕ) < p.off k ∧ ¬ fixed j).card := by
  classical
  have hkN : p.off k ≤ N := (p.mono hk).trans p.last.le
  have hacc : (List.range k).foldl (fun t r => t + cnt r) 0
      = (Finset.univ.filter fun j : Fin N => (j : ℕ) < p.off k ∧ fixed j).card := by
    have h1 : ∀ k : ℕ, (List.range k).foldl (fun t r => t + cnt r) 0 = ∑ r ∈ Finset.range k, cnt r := by
      intro k
      induction k with
      | zero => simp
      | succ k ih => rw [List.range_succ, List.foldl_append, ih, Finset.sum_range_succ]; rfl
    rw [h1]
    let g : ℕ → ℕ := fun j => if h : j < N then (if fixed ⟨j, h⟩ then 1 else 0) else 0
    have h2 : ∀ r ∈ Finset.range k, cnt r
        = ∑ i ∈ Finset.range (p.off (r + 1) - p.off r), g (p.off r + i) := by
      intro r hr
      have hrk : r < P := lt_of_lt_of_le (Finset.mem_range.1 hr) hk
      have := hcnt ⟨r, hrk⟩
      simp only at this
      rw [this, Finset.card_filter, ← Fin.sum_univ_eq_sum_range (fun i => g (p.off r + i))]
      refine Finset.sum_congr rfl fun i _ => ?_
      have hlt : p.off r + (i : ℕ) < N := (p.idx ⟨r, hrk⟩ i).isLt
      simp only [g, hlt, dif_pos]
      rfl
    rw [Finset.sum_congr rfl h2, ← sum_offsets p.off p.zero p.mono g k, Finset.card_filter]
    have h3 : ∀ j : Fin N, (if (j : ℕ) < p.off k ∧ fixed j then 1 else 0)
        = if (j : ℕ) < p.off k then g j else 0 := by
      intro j
      simp only [g, j.isLt, dif_pos]
      by_cases h : (j : ℕ) < p.off k <;> simp [h]
    simp only [h3]
    rw [Fin.sum_univ_eq_sum_range (fun j => if j < p.off k then g j else 0), ← Finset.sum_filter]
    apply Finset.sum_congr _ fun _ _ => rfl
    ext j
    simp only [Finset.mem_filter, Finset.mem_range]
    omega
  have hall : (Finset.univ.filter fun j : Fin N => (j : ℕ) < p.off k).card = p.off k := by
    rw [Finset.card_filter, Fin.sum_univ_eq_sum_range (fun j => if j < p.off k then 1 else 0),
      ← Finset.sum_filter]
    have : (Finset.range N).filter (fun j => j < p.off k) = Finset.range (p.off k) := by
      ext j; simp only [Finset.mem_filter, Finset.mem_range]; omega
    rw [this]; simp
  have hsplit : (Finset.univ.filter fun j : Fin N => (j : ℕ) < p.off k ∧ fixed j).card
      + (Finset.univ.filter fun j : Fin N => (j : ℕ) < p.off k ∧ ¬ fixed j).card = p.off k := by
    have := Finset.card_filter_add_card_filter_not
      (s := Finset.univ.filter fun j : Fin N => (j : ℕ) < p.off k) fixed
    rw [Finset.filter_filter, Finset.filter_filter] at this
    rw [this, hall]
  unfold rsOffsets
  simp only [hacc]
  omega

/-! ## Iterate -/

theorem exists_out {A B : Type*} {v : Fin P → A} {op : A → A → A} {c : A}
    (h : ∀ g, Allreduce op v g ↔ ∀ r, g r = c) (f : Fin P → A → B) (out : Fin P → B) :
    (∃ g : Fin P → A, Allreduce op v g ∧ ∀ r, out r = f r (g r)) ↔ ∀ r, out r = f r c := by
  constructor
  · rintro ⟨g, hg, ho⟩ r
    rw [ho r, (h g).1 hg r]
  · intro ho
    exact ⟨fun _ => c, (h _).2 fun _ => rfl, ho⟩

theorem sum_onenorm2 (p : Part N P) (x y : RVec K N) (g : Fin P → K) :
    Allreduce (· + ·) (fun r => onenorm (scatter p x r) + onenorm (scatter p y r)) g ↔
      ∀ r, g r = onenorm x + onenorm y := by
  rw [allreduce_sum, Finset.sum_add_distrib]
  simp only [onenorm_eq_sum]
  rw [← sum_scatter p (fun j => |x j|), ← sum_scatter p (fun j => |y j|)]
  rfl

/-- **C34.** The 1-norms of the multipliers. -/
theorem C34_dual_norms (it : It K N mc m) :
    (∀ out, normOneOfBoundDualsD (scatterIt p it) out ↔ ∀ r, out r = normOneOfBoundDuals it) ∧
    (∀ out, normOneOfEqualityDualsD (scatterIt p it) out ↔ ∀ r, out r = normOneOfEqualityDuals it) ∧
    (∀ out, normOneOfDualsD (scatterIt p it) out ↔ ∀ r, out r = normOneOfDuals it) := by
  refine ⟨fun out => ?_, fun out => ?_, fun out => ?_⟩
  · exact exists_out (sum_onenorm2 p it.zl it.zu)
      (fun r g => g + (onenorm it.vl + onenorm it.vu)) out
  · exact exists_out (sum_onenorm2 p it.zl it.zu)
      (fun r g => g + (onenorm it.vl + onenorm it.vu + onenorm it.yc + onenorm it.yd)) out
  · exact exists_out (sum_onenorm2 p it.zl it.zu)
      (fun r g => (onenorm it.yc + onenorm it.yd, g + (onenorm it.vl + onenorm it.vu))) out

/-- `c` is the least of the values of the ranks. -/
def IsInf {A : Type*} [LinearOrder A] (v : Fin P → A) (c : A) : Prop :=
  (∀ s, c ≤ v s) ∧ ∀ _ : Fin P, ∃ s, v s ≤ c

/-- `c` is the largest of the values of the ranks. -/
def IsSup {A : Type*} [LinearOrder A] (v : Fin P → A) (c : A) : Prop :=
  (∀ s, v s ≤ c) ∧ ∀ _ : Fin P, ∃ s, c ≤ v s

theorem IsInf.const {A : Type*} [LinearOrder A] (c : A) : IsInf (fun _ : Fin P => c) c :=
  ⟨fun _ => le_rfl, fun r => ⟨r, le_rfl⟩⟩

theorem IsSup.const {A : Type*} [LinearOrder A] (c : A) : IsSup (fun _ : Fin P => c) c :=
  ⟨fun _ => le_rfl, fun r => ⟨r, le_rfl⟩⟩

theorem IsInf.min {A : Type*} [LinearOrder A] {v w : Fin P → A} {c d : A} (h1 : IsInf v c)
    (h2 : IsInf w d) : IsInf (fun s => min (v s) (w s)) (min c d) := by
  refine ⟨fun s => min_le_min (h1.1 s) (h2.1 s), fun r => ?_⟩
  rcases min_choice c d with h | h
  · obtain ⟨s, hs⟩ := h1.2 r
    exact ⟨s, by rw [h]; exact (min_le_left _ _).trans hs⟩
  · obtain ⟨s, hs⟩ := h2.2 r
    exact ⟨s, by rw [h]; exact (min_le_right _ _).trans hs⟩

theorem IsSup.max {A : Type*} [LinearOrder A] {v w : Fin P → A} {c d : A} (h1 : IsSup v c)
    (h2 : IsSup w d) : IsSup (fun s => max (v s) (w s)) (max c d) := by
  refine ⟨fun s => max_le_max (h1.1 s) (h2.1 s), fun r => ?_⟩
  rcases max_choice c d with h | h
  · obtain ⟨s, hs⟩ := h1.2 r
    exact ⟨s, by rw [h]; exact hs.trans (le_max_left _ _)⟩
  · obtain ⟨s, hs⟩ := h2.2 r
    exact ⟨s, by rw [h]; exact hs.trans (le_max_right _ _)⟩

theorem isSup_infnorm (p : Part N P) (x : RVec K N) :
    IsSup (fun r => infnorm (scatter p x r)) (infnorm x) :=
  ⟨infnorm_scatter_le p x, exists_rank_of_infnorm p x⟩

theorem isInf_fraction (p : Part N P) (x d : RVec K N) (tau : K) (pat : RVec K N) :
    IsInf (fun r => fractionToBdrySel (scatter p x r) (scatter p d r) tau (scatter p pat r))
      (fractionToBdrySel x d tau pat) := by
  obtain ⟨h1, h2, h3⟩ := fractionToBdrySel_char x d tau pat
  refine ⟨fun s => ?_, fun r => ?_⟩ <;> beta_reduce
  · rcases (fractionToBdrySel_char (scatter p x s) (scatter p d s) tau (scatter p pat s)).2.2 with
      g | ⟨i, hd, hp, g⟩
    · rw [g]; exact h1
    · rw [g]; exact h2 (p.idx s i) hd hp
  · rcases h3 with h | ⟨j, hd, hp, h⟩
    · exact ⟨r, by rw [h]; exact (fractionToBdrySel_char _ _ _ _).1⟩
    · obtain ⟨s, i, rfl⟩ := p.exists_idx j
      exact ⟨s, by
        rw [h]
        exact (fractionToBdrySel_char (scatter p x s) (scatter p d s) tau (scatter p pat s)).2.1 i
          hd hp⟩

/-- **C34.** The step lengths to the boundary. -/
theorem C34_step_lengths (b : Bounds K N m) (it dir : It K N mc m) (tau : K) (out : Fin P → K × K) :
    fractionToTheBdryD (scatterBounds p b) (scatterIt p it) (scatterIt p dir) tau out ↔
      ∀ r, out r = fractionToTheBdry b it dir tau := by
  have hap : IsInf (fun r => (fractionToTheBdry (scatterBounds p b r) (scatterIt p it r)
      (scatterIt p dir r) tau).1) (fractionToTheBdry b it dir tau).1 :=
    ((((IsInf.const 10).min (isInf_fraction p it.sxl dir.sxl tau b.ixl)).min
      (isInf_fraction p it.sxu dir.sxu tau b.ixu)).min (IsInf.const _)).min (IsInf.const _)
  have had : IsInf (fun r => (fractionToTheBdry (scatterBounds p b r) (scatterIt p it r)
      (scatterIt p dir r) tau).2) (fractionToTheBdry b it dir tau).2 :=
    ((((IsInf.const 10).min (isInf_fraction p it.zl dir.zl tau b.ixl)).min
      (isInf_fraction p it.zu dir.zu tau b.ixu)).min (IsInf.const _)).min (IsInf.const _)
  apply allreduce_iff
  intro y hy
  have key : ∀ (v : Fin P → K) (c z : K), IsInf v c → Red min v (List.finRange P) z → z = c := by
    intro v c z hc hz
    obtain ⟨h1, r, -, h2⟩ := red_min hz
    obtain ⟨s, hs⟩ := hc.2 r
    exact le_antisymm ((h1 s (List.mem_finRange s)).trans hs) (h2 ▸ hc.1 r)
  exact Prod.ext
    (key _ _ _ hap (red_map (op' := min) Prod.fst (fun _ _ => rfl) hy))
    (key _ _ _ had (red_map (op' := min) Prod.snd (fun _ _ => rfl) hy))

theorem sum_logBarrier (p : Part N P) (x sel : RVec ℝ N) :
    ∑ r, Barrier.logBarrierLocal (scatter p x r) (scatter p sel r) = Barrier.logBarrierLocal x sel := by
  rw [Barrier.logBarrierLocal_eq_sum, ← sum_scatter p]
  exact Finset.sum_congr rfl fun r _ => Barrier.logBarrierLocal_eq_sum _ _

theorem sum_damping (p : Part N P) (x il ir : RVec ℝ N) (mu kd : ℝ) :
    ∑ r, linearDampingTermLocal (scatter p x r) (scatter p il r) (scatter p ir r) mu kd
      = linearDampingTermLocal x il ir mu kd := by
  rw [linearDampingTermLocal_eq_sum, ← sum_scatter p, Finset.sum_mul, Finset.sum_mul]
  exact Finset.sum_congr rfl fun r _ => linearDampingTermLocal_eq_sum _ _ _ _ _

/-- **C34.** The logarithmic barrier term. -/
theorem C34_log_barrier (b : Bounds ℝ N m) (it : It ℝ N mc m) (out : Fin P → ℝ) :
    evalLogBarrierD (scatterBounds p b) (scatterIt p it) out ↔
      ∀ r, out r = Barrier.evalLogBarrier b it := by
  refine exists_out (c := Barrier.logBarrierLocal it.sxl b.ixl + Barrier.logBarrierLocal it.sxu b.ixu)
    (fun g => ?_) (fun r g => g + Barrier.logBarrierLocal it.sdl b.idl
      + Barrier.logBarrierLocal it.sdu b.idu) out
  rw [allreduce_sum, Finset.sum_add_distrib]
  rw [← sum_logBarrier p it.sxl, ← sum_logBarrier p it.sxu]
  rfl

/-- **C34.** The linear damping term. -/
theorem C34_damping (b : Bounds ℝ N m) (it : It ℝ N mc m) (mu kappad : ℝ) (out : Fin P → ℝ) :
    linearDampingTermD (scatterBounds p b) (scatterIt p it) mu kappad out ↔
      ∀ r, out r = Barrier.linearDampingTerm b it mu kappad := by
  refine exists_out (c := linearDampingTermLocal it.sxl b.ixl b.ixu mu kappad
      + linearDampingTermLocal it.sxu b.ixu b.ixl mu kappad)
    (fun g => ?_) (fun r g => g + linearDampingTermLocal it.sdl b.idl b.idu mu kappad
      + linearDampingTermLocal it.sdu b.idu b.idl mu kappad) out
  rw [allreduce_sum, Finset.sum_add_distrib]
  rw [← sum_damping p it.sxl, ← sum_damping p it.sxu]
  rfl

end Hiop.Mpi
