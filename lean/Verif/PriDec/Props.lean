import Verif.PriDec.Fair
import Mathlib.Algebra.Field.Basic
import Mathlib.Algebra.Order.Field.Rat
import Mathlib.Algebra.BigOperators.Pi
import Mathlib.Data.List.OfFn

/-!
# C25 — every recourse term is evaluated exactly once, whatever the message timing

`exec c init l` is the state after the schedule `l`, an arbitrary finite list of choices of which rank
acts or which message moves (`Protocol.lean`).  `evals` lists the recourse indices for which the user's
callbacks were called.  `total` is the sum from which rank 0 computes the average recourse value and
gradient.
-/

set_option linter.unusedSectionVars false

namespace Hiop.PriDec

variable {w : ℕ} {M : Type} [AddCommGroup M]

/-- No schedule makes an assert of the communication part fail or the index array be read out of range,
provided there are at least as many recourse terms as evaluators. -/
theorem C25_no_failure (c : Cfg M) (hw : 1 ≤ w) (hS : w ≤ c.S) (l : List (Act w)) :
    (exec c (init : St w M) l).pc ≠ .abort := by
  obtain ⟨ph, sent, -, -, hM⟩ := inv_exec hw l (inv_init c)
  intro h
  unfold MasterOk at hM
  rw [h] at hM
  simp only at hM
  omega

/-- With fewer recourse terms than evaluators the assert on the number of ranks does fail: the hypothesis
of `C25_no_failure` cannot be dropped. -/
theorem C25_too_few (c : Cfg M) (hS : c.S < w) :
    (exec c (init : St w M) [.master]).pc = .abort := by
  simp [exec, step, act, master, init, show ¬ w ≤ c.S by omega]

theorem sent_le {c : Cfg M} {s : St w M} {k : Fin w → Cls} {sent : ℕ} (h : MasterOk c s k sent)
    (hn : s.pc ≠ .abort) : sent ≤ c.S := by
  unfold MasterOk at h
  cases hpc : s.pc <;> simp only [hpc] at h
  · omega
  · omega
  · omega
  · omega
  · have := h.1.hsent; omega
  · have := h.2.1.hsent; omega
  · omega
  · have := h.1.hsent; omega
  · omega
  · omega
  · omega
  · exact (hn hpc).elim

/-- At every instant of every schedule, no recourse term has been evaluated twice and only indices
`0 … S-1` have been evaluated. -/
theorem C25_never_twice (c : Cfg M) (hw : 1 ≤ w) (hS : w ≤ c.S) (l : List (Act w)) :
    (exec c (init : St w M) l).evals.Nodup ∧
    ∀ i ∈ (exec c (init : St w M) l).evals, 0 ≤ i ∧ i < c.S := by
  have hab := C25_no_failure (w := w) c hw hS l
  obtain ⟨ph, sent, -, hSum, hM⟩ := inv_exec hw l (inv_init (w := w) c)
  have hle := sent_le hM hab
  have hsub : ((exec c (init : St w M) l).evals : Multiset ℤ)
      ≤ (Multiset.range sent).map (fun i : ℕ => (i : ℤ)) := by
    rw [← hSum.ev]
    exact Multiset.le_add_right _ _
  constructor
  · have : ((Multiset.range sent).map (fun i : ℕ => (i : ℤ))).Nodup :=
      (Multiset.nodup_range sent).map Nat.cast_injective
    exact Multiset.coe_nodup.mp (Multiset.nodup_of_le hsub this)
  · intro i hi
    have := Multiset.mem_of_le hsub (Multiset.mem_coe.mpr hi)
    obtain ⟨j, hj, rfl⟩ := Multiset.mem_map.mp this
    have := Multiset.mem_range.mp hj
    omega

theorem done_sums {c : Cfg M} {s : St w M} (hI : Inv c s) (h : s.pc = .done) :
    (s.evals : Multiset ℤ) = (Multiset.range c.S).map (fun i : ℕ => (i : ℤ)) ∧
    s.acc = ∑ i ∈ Finset.range c.S, c.pay (i : ℤ) ∧
    ∑ r, s.wacc r = ∑ i ∈ Finset.range c.S, c.part (i : ℤ) := by
  obtain ⟨ph, sent, -, hSum, hM⟩ := hI
  unfold MasterOk at hM
  rw [h] at hM
  obtain ⟨rfl, -, hk⟩ := hM
  have hq : ∀ r, (ph r).toEv = 0 ∧ (ph r).toAcc c = 0 ∧ (ph r).toLoc c = 0 := fun r =>
    quiet_toEv c (by rw [show (ph r).cls = .ending from hk r]; decide)
  have h1 := hSum.ev
  have h2 := hSum.acc
  have h3 := hSum.loc
  rw [Finset.sum_eq_zero fun r _ => (hq r).1, add_zero] at h1
  rw [Finset.sum_eq_zero fun r _ => (hq r).2.1, add_zero] at h2
  rw [Finset.sum_eq_zero fun r _ => (hq r).2.2, add_zero] at h3
  exact ⟨h1, h2, h3⟩

/-- When rank 0 leaves the communication part, the recourse terms evaluated are exactly `0 … S-1`, each
once: the list of evaluated indices is a permutation of them. -/
theorem C25_exactly_once (c : Cfg M) (hw : 1 ≤ w) (l : List (Act w))
    (hd : (exec c (init : St w M) l).pc = .done) :
    (exec c (init : St w M) l).evals.Perm ((List.range c.S).map fun i : ℕ => (i : ℤ)) := by
  have := (done_sums (inv_exec hw l (inv_init c)) hd).1
  exact Multiset.coe_eq_coe.mp this

theorem foldl_add_range (n : ℕ) (g : ℕ → M) :
    (List.range n).foldl (fun a i => a + g i) 0 = ∑ i ∈ Finset.range n, g i := by
  induction n with
  | zero => simp
  | succ n ih => rw [List.range_succ, List.foldl_append, ih, Finset.sum_range_succ]; rfl

/-- The sum rank 0 obtains is the sum over all recourse terms, for every schedule, every number of
evaluators and both accumulation modes; it is what the serial solver computes. -/
theorem C25_sum (c : Cfg M) (hw : 1 ≤ w) (l : List (Act w))
    (hd : (exec c (init : St w M) l).pc = .done) :
    total c (exec c (init : St w M) l) = ∑ i ∈ Finset.range c.S, c.f (i : ℤ) ∧
    total c (exec c (init : St w M) l) = serialTotal c := by
  obtain ⟨-, h2, h3⟩ := done_sums (inv_exec hw l (inv_init c)) hd
  have : total c (exec c (init : St w M) l) = ∑ i ∈ Finset.range c.S, c.f (i : ℤ) := by
    unfold total
    rw [h2, h3]
    by_cases hl : c.loc = true
    · simp [Cfg.pay, Cfg.part, hl]
    · simp [Cfg.pay, hl]
  refine ⟨this, ?_⟩
  rw [this, serialTotal, ← foldl_add_range c.S fun i => c.f (i : ℤ)]

/-- In the local-accumulation mode rank 0's own part stays zero until the reduction. -/
theorem C25_local_master_zero (c : Cfg M) (hw : 1 ≤ w) (hl : c.loc = true) (l : List (Act w))
    (hd : (exec c (init : St w M) l).pc = .done) : (exec c (init : St w M) l).acc = 0 := by
  obtain ⟨-, h2, -⟩ := done_sums (inv_exec hw l (inv_init c)) hd
  rw [h2]
  simp [Cfg.pay, hl]

/-- When all ranks have finished, no message is left in flight and no receive is left pending. -/
theorem C25_clean_finish (c : Cfg M) (hw : 1 ≤ w) (l : List (Act w))
    (hd : Final (exec c (init : St w M) l)) (r : Fin w) :
    (exec c (init : St w M) l).inbox r = [] ∧ (exec c (init : St w M) l).outbox r = [] ∧
    (exec c (init : St w M) l).rreq r = false := by
  obtain ⟨ph, sent, hP, -, hM⟩ := inv_exec hw l (inv_init (w := w) c)
  unfold MasterOk at hM
  rw [hd.1] at hM
  obtain ⟨-, hr, hk⟩ := hM
  have h1 := hP r
  have h2 : (ph r).cls = .ending := hk r
  have h3 := hd.2 r
  refine ⟨?_, ?_, hr r⟩ <;>
    cases hp : ph r <;> rw [hp] at h1 h2 <;> simp_all [PhOk, Ph.cls]

/-- If every rank keeps acting and the network keeps moving messages, every rank finishes the iteration,
in whatever order things happen and whether or not sends are buffered. -/
theorem C25_terminates (c : Cfg M) (hw : 1 ≤ w) (hS : w ≤ c.S) (sch : ℕ → Act w) (hF : Fair sch) :
    ∃ n, Final (trace c sch n) := by
  obtain ⟨k, -, h⟩ := terminates hw hS hF 0
  exact ⟨k, h⟩

/-- How many actions of evaluators and of the network actually happen in a schedule. -/
def work (c : Cfg M) : St w M → List (Act w) → ℕ
  | _, [] => 0
  | s, a :: l =>
    (if a ≠ .master ∧ (act c s a).isSome then 1 else 0) + work c (step c s a) l

theorem work_le (c : Cfg M) (hw : 1 ≤ w) (l : List (Act w)) :
    ∀ s : St w M, Inv c s → work c s l ≤ mu c s := by
  induction l with
  | nil => intro s _; simp [work]
  | cons a l ih =>
    intro s hI
    have h1 := ih (step c s a) (inv_step hw hI a)
    have h2 := mu_step hI a
    unfold work
    by_cases hd : a ≠ .master ∧ (act c s a).isSome
    · obtain ⟨s', hs⟩ := Option.isSome_iff_exists.mp hd.2
      have h3 := mu_other hd.1 hs
      rw [if_pos hd]
      rw [show step c s a = s' by rw [step, hs]; rfl] at h1 ⊢
      omega
    · rw [if_neg hd]
      omega

/-- The evaluators and the network do a bounded amount of work in an iteration for every schedule, fair
or not. -/
theorem C25_bounded_work (c : Cfg M) (hw : 1 ≤ w) (l : List (Act w)) :
    work c (init : St w M) l ≤ 10 * c.S + 19 * w + 7 := by
  have h := work_le c hw l _ (inv_init (w := w) c)
  have : mu c (init : St w M) = 10 * c.S + 19 * w + 7 := by
    simp [mu, init, rankW, pot]
    ring
  omega

section Average

variable {K : Type} [Field K] {n : ℕ}

/-- Rank 0's averages (hiopAlgPrimalDecomp.cpp:993-994): the sums are divided by `S`. -/
def average (S : ℕ) (m : K × (Fin n → K)) : K × (Fin n → K) :=
  (m.1 / S, fun j => (1 / S) * m.2 j)

/-- The averaged recourse value and gradient do not depend on the schedule: they are the arithmetic means
of the values and gradients of all recourse terms. -/
theorem C25_average (c : Cfg (K × (Fin n → K))) (hw : 1 ≤ w) (l : List (Act w))
    (hd : (exec c (init : St w (K × (Fin n → K))) l).pc = .done) :
    (average c.S (total c (exec c (init : St w _) l))).1 = (∑ i ∈ Finset.range c.S, (c.f i).1) / c.S ∧
    ∀ j, (average c.S (total c (exec c (init : St w _) l))).2 j
      = (∑ i ∈ Finset.range c.S, (c.f i).2 j) / c.S := by
  rw [(C25_sum c hw l hd).1]
  refine ⟨?_, fun j => ?_⟩
  · simp only [average]
    rw [Prod.fst_sum]
  · simp only [average]
    rw [Prod.snd_sum, Finset.sum_apply]
    ring

end Average

/-! ### The hypotheses are met -/

/-- All actions, in turn. -/
def allActs (w : ℕ) : List (Act w) :=
  .master :: (List.finRange w).flatMap fun r => [.worker r, .moveIdx r, .moveRes r]

/-- The round-robin schedule. -/
def roundRobin (w : ℕ) (n : ℕ) : Act w :=
  (allActs w)[n % (allActs w).length]'(Nat.mod_lt _ (by simp [allActs]))

/-- Fair schedules exist, for every number of ranks. -/
theorem fair_roundRobin (w : ℕ) : Fair (roundRobin w) := by
  intro a n
  have hmem : a ∈ allActs w := by
    cases a <;> simp [allActs]
  obtain ⟨i, hi, hia⟩ := List.getElem_of_mem hmem
  refine ⟨n * (allActs w).length + i, ?_, ?_⟩
  · have : 1 ≤ (allActs w).length := by simp [allActs]
    exact le_trans (Nat.le_mul_of_pos_right n this) (Nat.le_add_right _ _)
  · simp only [roundRobin]
    have : (n * (allActs w).length + i) % (allActs w).length = i := by
      rw [Nat.mul_comm, Nat.mul_add_mod, Nat.mod_eq_of_lt hi]
    simp only [this, hia]

/-- Two evaluators, three recourse terms, rendezvous sends, both modes. -/
def exCfg (loc : Bool) : Cfg ℚ := { S := 3, eager := false, loc := loc, f := fun i => 10 + i }

/-- A concrete schedule that runs to the end. -/
def exSched : List (Act 2) := (List.range 30).flatMap fun _ => allActs 2

/-- On it, rank 0 collects `10 + 11 + 12` in both modes and each term is evaluated once; the hypotheses of
`C25_exactly_once`, `C25_sum`, `C25_clean_finish` are met. -/
example : (exec (exCfg false) init exSched).pc = .done ∧ total (exCfg false) (exec (exCfg false) init exSched) = 33
    ∧ (exec (exCfg false) init exSched).evals.length = 3
    ∧ ∀ r, (exec (exCfg false) init exSched).wpc r = .done := by
  decide +kernel

example : (exec (exCfg true) init exSched).pc = .done ∧ total (exCfg true) (exec (exCfg true) init exSched) = 33
    ∧ (exec (exCfg true) init exSched).acc = 0 ∧ (exec (exCfg true) init exSched).wacc 0 ≠ 0
    ∧ (exec (exCfg true) init exSched).wacc 1 ≠ 0 := by
  decide +kernel

/-- The hypotheses of `C25_terminates` are met by the round-robin schedule. -/
example : ∃ n, Final (trace (exCfg true) (roundRobin 2) n) :=
  C25_terminates _ (by decide) (by decide) _ (fair_roundRobin 2)

end Hiop.PriDec
