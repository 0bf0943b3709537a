import Verif.QN.Memory
import Mathlib.Algebra.BigOperators.Intervals

/-!
# C44: the quasi-Newton matrix: one matrix behind products, solves and the constraint matrix

The specification is `bfgs` (Core.lean), the textbook BFGS matrix of the stored pairs started from
`sigma` times the identity.
-/

set_option linter.unusedSectionVars false

namespace Hiop.QN

open Hiop.Vec Hiop.Kkt Matrix

variable {n mc m k : ℕ}

/-! ## Hypotheses on the dense factorisation -/

/-- The matrix stored in the upper triangle of `W`, applied to `z`. -/
noncomputable def symApply (N : ℕ) (W : NMat ℝ) (z : ℕ → ℝ) (r : ℕ) : ℝ :=
  ∑ c ∈ Finset.range N, W (min r c) (max r c) * z c

/-- Answers solve the system. -/
def LapackExact (la : Lapack) : Prop :=
  ∀ N W rhs z, la N W rhs = some z → ∀ r < N, symApply N W z r = rhs r

/-- Nonsingular matrices are factorised. -/
def LapackTotal (la : Lapack) : Prop :=
  ∀ N W rhs, (∀ z, (∀ r < N, symApply N W z r = 0) → ∀ r < N, z r = 0) → (la N W rhs).isSome

/-! ## Kernels -/

theorem wdot_eq (a d b : RVec ℝ n) : wdot a d b = ∑ i, a i * d i * b i := by
  unfold wdot
  rw [foldl_add_sum, finRange_map_sum, zero_add]

theorem wdot_comm (a d b : RVec ℝ n) : wdot a d b = wdot b d a := by
  rw [wdot_eq, wdot_eq]; exact Finset.sum_congr rfl fun i _ => by ring

theorem wdot_sum {ι : Type*} (s : Finset ι) (u d : RVec ℝ n) (v : ι → RVec ℝ n) (c : ι → ℝ) :
    ∑ j ∈ s, wdot u d (v j) * c j = wdot u d (∑ j ∈ s, c j • v j) := by
  simp only [wdot_eq, Finset.sum_apply, Pi.smul_apply, smul_eq_mul, Finset.mul_sum, Finset.sum_mul]
  rw [Finset.sum_comm]
  exact Finset.sum_congr rfl fun i _ => Finset.sum_congr rfl fun j _ => by ring

theorem scale_apply (x : RVec ℝ n) (c : ℝ) (i : Fin n) : scale x c i = c * x i := by
  unfold scale
  split
  · rename_i h; rw [← h, one_mul]
  · rfl

/-! ## The middle matrix -/

/-- `V_` is the documented middle matrix of the pairs `ps`. -/
structure VOk (q : St n mc m) (ps : List (Pair n)) : Prop where
  dim : q.vDim = 2 * ps.length
  v11 : ∀ i < ps.length, ∀ j < ps.length, q.V i j
    = wdot (sAt ps i) (fun t => q.sigma * (q.sigma * q.dhInv t - 1)) (sAt ps j)
  v12 : ∀ i < ps.length, ∀ j < ps.length, q.V i (ps.length + j)
    = wdot (sAt ps i) (fun t => q.sigma * q.dhInv t) (yAt ps j)
      - if j < i then sAt ps i ⬝ᵥ yAt ps j else 0
  v22 : ∀ i < ps.length, ∀ j < ps.length, q.V (ps.length + i) (ps.length + j)
    = wdot (yAt ps i) q.dhInv (yAt ps j) + if i = j then sAt ps i ⬝ᵥ yAt ps i else 0

theorem symMatDiag_zero (X : ℕ → RVec ℝ n) (d : RVec ℝ n) (i j : ℕ) :
    symMatDiag 0 (fun _ _ => 0) 1 X d i j = wdot (X i) d (X j) := by
  unfold symMatDiag
  rcases le_total i j with h | h
  · rw [min_eq_left h, max_eq_right h]; ring
  · rw [min_eq_right h, max_eq_left h, wdot_comm]; ring

theorem setBlock_in (V : NMat ℝ) (i0 j0 l : ℕ) (B : NMat ℝ) {i j : ℕ} (hi : i < l) (hj : j < l) :
    setBlock V i0 j0 l B (i0 + i) (j0 + j) = B i j := by
  unfold setBlock
  rw [if_pos ⟨by omega, by omega, by omega, by omega⟩, Nat.add_sub_cancel_left,
    Nat.add_sub_cancel_left]

theorem setBlock_out (V : NMat ℝ) (i0 j0 l : ℕ) (B : NMat ℝ) {i j : ℕ}
    (h : ¬ (i0 ≤ i ∧ i < i0 + l ∧ j0 ≤ j ∧ j < j0 + l)) :
    setBlock V i0 j0 l B i j = V i j := by
  unfold setBlock
  rw [if_neg h]

theorem rep_ok {q : St n mc m} {ps : List (Pair n)} (h : MemOk q ps) :
    ∃ q', rep q = some q' ∧ VOk q' ps ∧ q'.sigma = q.sigma ∧ q'.dhInv = q.dhInv ∧
      q'.changed = false := by
  have hl : q.S.length = ps.length := by rw [h.S]; simp
  unfold rep
  rw [if_pos ⟨by rw [h.lDim, hl], by rw [h.D, hl]; simp⟩]
  refine ⟨_, rfl, ⟨?_, ?_, ?_, ?_⟩, rfl, rfl, rfl⟩
  · simp only [hl]
  · intro i hi j hj
    simp only [hl, getD_S h]
    have e := setBlock_in (setBlock (setBlock q.V ps.length ps.length ps.length
        (fun i j => symMatDiag 0 (fun _ _ => 0) 1 (fun i => q.Y.getD i 0) q.dhInv i j
          + if i = j then q.D.getD i 0 else 0)) 0 ps.length ps.length
        (fun i j => matDiag (fun i => sAt ps i) (scale q.dhInv q.sigma) (fun i => q.Y.getD i 0) i j
          + -1 * q.L i j)) 0 0 ps.length
        (symMatDiag 0 (fun _ _ => 0) 1 (fun i => sAt ps i)
          (scale (addConstant (scale q.dhInv q.sigma) (-1)) q.sigma)) hi hj
    rw [Nat.zero_add, Nat.zero_add] at e
    rw [e, symMatDiag_zero]
    congr 1
    funext t
    simp only [scale_apply, addConstant]
    ring
  · intro i hi j hj
    simp only [hl, getD_S h, getD_Y h]
    rw [setBlock_out _ _ _ _ _ (by omega)]
    have e := setBlock_in (setBlock q.V ps.length ps.length ps.length
        (fun i j => symMatDiag 0 (fun _ _ => 0) 1 (fun i => yAt ps i) q.dhInv i j
          + if i = j then q.D.getD i 0 else 0)) 0 ps.length ps.length
        (fun i j => matDiag (fun i => sAt ps i) (scale q.dhInv q.sigma) (fun i => yAt ps i) i j
          + -1 * q.L i j) hi hj
    rw [Nat.zero_add] at e
    rw [e, h.L i hi j hj, matDiag]
    have : scale q.dhInv q.sigma = fun t => q.sigma * q.dhInv t := by
      funext t; rw [scale_apply]
    rw [this]; ring
  · intro i hi j hj
    simp only [hl, getD_S h, getD_Y h]
    rw [setBlock_out _ _ _ _ _ (by omega), setBlock_out _ _ _ _ _ (by omega),
      setBlock_in _ _ _ _ _ hi hj, symMatDiag_zero, getD_D h hi]

/-- Sum over the rows of the middle matrix, first block row. -/
theorem symApply_top {q : St n mc m} {ps : List (Pair n)} (v : VOk q ps) (z : ℕ → ℝ) {i : ℕ}
    (hi : i < ps.length) :
    symApply q.vDim q.V z i
      = wdot (sAt ps i) (fun t => q.sigma * (q.sigma * q.dhInv t - 1))
          (∑ j ∈ Finset.range ps.length, z j • sAt ps j)
        + wdot (sAt ps i) (fun t => q.sigma * q.dhInv t)
          (∑ j ∈ Finset.range ps.length, z (ps.length + j) • yAt ps j)
        - ∑ j ∈ Finset.range ps.length,
          (if j < i then sAt ps i ⬝ᵥ yAt ps j else 0) * z (ps.length + j) := by
  unfold symApply
  rw [v.dim, two_mul, Finset.sum_range_add, ← wdot_sum, ← wdot_sum, add_sub_assoc,
    ← Finset.sum_sub_distrib]
  congr 1
  · refine Finset.sum_congr rfl fun j hj => ?_
    have hj := Finset.mem_range.mp hj
    rcases le_total i j with h | h
    · rw [min_eq_left h, max_eq_right h, v.v11 i hi j hj]
    · rw [min_eq_right h, max_eq_left h, v.v11 j hj i hi, wdot_comm]
  · refine Finset.sum_congr rfl fun j hj => ?_
    have hj := Finset.mem_range.mp hj
    rw [min_eq_left (by omega), max_eq_right (by omega), v.v12 i hi j hj]
    ring

/-- Second block row. -/
theorem symApply_bot {q : St n mc m} {ps : List (Pair n)} (v : VOk q ps) (z : ℕ → ℝ) {i : ℕ}
    (hi : i < ps.length) :
    symApply q.vDim q.V z (ps.length + i)
      = wdot (yAt ps i) (fun t => q.sigma * q.dhInv t)
          (∑ j ∈ Finset.range ps.length, z j • sAt ps j)
        + wdot (yAt ps i) q.dhInv (∑ j ∈ Finset.range ps.length, z (ps.length + j) • yAt ps j)
        - ∑ j ∈ Finset.range ps.length, (if i < j then sAt ps j ⬝ᵥ yAt ps i else 0) * z j
        + (sAt ps i ⬝ᵥ yAt ps i) * z (ps.length + i) := by
  unfold symApply
  rw [v.dim, two_mul, Finset.sum_range_add, ← wdot_sum, ← wdot_sum]
  have e1 : ∑ j ∈ Finset.range ps.length, q.V (min (ps.length + i) j) (max (ps.length + i) j) * z j
      = ∑ j ∈ Finset.range ps.length, wdot (yAt ps i) (fun t => q.sigma * q.dhInv t) (sAt ps j) * z j
        - ∑ j ∈ Finset.range ps.length, (if i < j then sAt ps j ⬝ᵥ yAt ps i else 0) * z j := by
    rw [← Finset.sum_sub_distrib]
    refine Finset.sum_congr rfl fun j hj => ?_
    have hj := Finset.mem_range.mp hj
    rw [min_eq_right (by omega), max_eq_left (by omega), v.v12 j hj i hi, wdot_comm]
    ring
  have e2 : ∑ j ∈ Finset.range ps.length, q.V (min (ps.length + i) (ps.length + j))
        (max (ps.length + i) (ps.length + j)) * z (ps.length + j)
      = ∑ j ∈ Finset.range ps.length, wdot (yAt ps i) q.dhInv (yAt ps j) * z (ps.length + j)
        + (sAt ps i ⬝ᵥ yAt ps i) * z (ps.length + i) := by
    have : (sAt ps i ⬝ᵥ yAt ps i) * z (ps.length + i) = ∑ j ∈ Finset.range ps.length,
        (if j = i then (sAt ps i ⬝ᵥ yAt ps i) * z (ps.length + i) else 0) := by
      rw [Finset.sum_ite_eq' (Finset.range ps.length) i, if_pos (Finset.mem_range.mpr hi)]
    rw [this, ← Finset.sum_add_distrib]
    refine Finset.sum_congr rfl fun j hj => ?_
    have hj := Finset.mem_range.mp hj
    by_cases hij : j = i
    · subst hij
      rw [min_self, max_self, v.v22 j hj j hj, if_pos rfl, if_pos rfl]; ring
    · rw [if_neg hij, add_zero]
      rcases le_total i j with h | h
      · rw [min_eq_left (by omega), max_eq_right (by omega), v.v22 i hi j hj,
          if_neg (fun h => hij h.symm), add_zero]
      · rw [min_eq_right (by omega), max_eq_left (by omega), v.v22 j hj i hi, if_neg hij, add_zero,
          wdot_comm]
  rw [e1, e2]; ring

theorem comb_eq (sigma : ℝ) (ps : List (Pair n)) (a b : ℕ → ℝ) :
    comb sigma ps a b = sigma • (∑ j ∈ Finset.range ps.length, a j • sAt ps j)
      + ∑ j ∈ Finset.range ps.length, b j • yAt ps j := by
  unfold comb
  rw [Finset.smul_sum]
  congr 1
  exact Finset.sum_congr rfl fun j _ => by rw [smul_smul, mul_comm]

/-- A solution of the middle system gives `Mid` for the vector assembled from it. -/
theorem mid_of_V {q : St n mc m} {ps : List (Pair n)} (v : VOk q ps) (r : RVec ℝ n) (z : ℕ → ℝ)
    (ht : ∀ i < ps.length, symApply q.vDim q.V z i
      = wdot (sAt ps i) (fun t => q.sigma * q.dhInv t) r)
    (hb : ∀ i < ps.length, symApply q.vDim q.V z (ps.length + i) = wdot (yAt ps i) q.dhInv r) :
    Mid q.sigma ps
      (fun t => q.dhInv t * (r t - comb q.sigma ps z (fun j => z (ps.length + j)) t))
      z (fun j => z (ps.length + j)) := by
  have hc := comb_eq q.sigma ps z (fun j => z (ps.length + j))
  set sa := ∑ j ∈ Finset.range ps.length, z j • sAt ps j with hsa
  set yb := ∑ j ∈ Finset.range ps.length, z (ps.length + j) • yAt ps j with hyb
  have key : ∀ u : RVec ℝ n, u ⬝ᵥ (fun t => q.dhInv t
      * (r t - comb q.sigma ps z (fun j => z (ps.length + j)) t))
      = wdot u q.dhInv r - q.sigma * wdot u q.dhInv sa - wdot u q.dhInv yb := by
    intro u
    rw [hc, wdot_eq, wdot_eq, wdot_eq, Finset.mul_sum, ← Finset.sum_sub_distrib,
      ← Finset.sum_sub_distrib, dotProduct]
    refine Finset.sum_congr rfl fun t _ => ?_
    simp only [Pi.add_apply, Pi.smul_apply, smul_eq_mul]
    ring
  have kσ : ∀ u w : RVec ℝ n, wdot u (fun t => q.sigma * q.dhInv t) w
      = q.sigma * wdot u q.dhInv w := by
    intro u w
    rw [wdot_eq, wdot_eq, Finset.mul_sum]
    exact Finset.sum_congr rfl fun t _ => by ring
  have kθ : ∀ u w : RVec ℝ n, wdot u (fun t => q.sigma * (q.sigma * q.dhInv t - 1)) w
      = q.sigma * (q.sigma * wdot u q.dhInv w) - q.sigma * (u ⬝ᵥ w) := by
    intro u w
    rw [wdot_eq, wdot_eq, dotProduct, Finset.mul_sum, Finset.mul_sum, Finset.mul_sum,
      ← Finset.sum_sub_distrib]
    exact Finset.sum_congr rfl fun t _ => by ring
  refine ⟨fun i hi => ?_, fun i hi => ?_⟩
  · have e := ht i hi
    rw [symApply_top v z hi, ← hsa, ← hyb, kσ, kσ, kθ] at e
    rw [key]
    have e1 : ∑ j ∈ Finset.range ps.length, q.sigma * (sAt ps i ⬝ᵥ sAt ps j) * z j
        = q.sigma * (sAt ps i ⬝ᵥ sa) := by
      rw [hsa, dotProduct_sum, Finset.mul_sum]
      exact Finset.sum_congr rfl fun j _ => by rw [dotProduct_smul, smul_eq_mul]; ring
    rw [e1]
    linear_combination -e
  · have e := hb i hi
    rw [symApply_bot v z hi, ← hsa, ← hyb, kσ] at e
    rw [key]
    linear_combination -e

/-- The vector assembled from a solution of the middle system solves the system with the BFGS matrix
plus the diagonal. -/
theorem solve_core {q : St n mc m} {ps : List (Pair n)} (v : VOk q ps) (hs : 0 < q.sigma)
    (hp : PosPairs ps) {dx : RVec ℝ n} (hd : ∀ t, (q.sigma + dx t) * q.dhInv t = 1)
    (r : RVec ℝ n) (z : ℕ → ℝ)
    (ht : ∀ i < ps.length, symApply q.vDim q.V z i
      = wdot (sAt ps i) (fun t => q.sigma * q.dhInv t) r)
    (hb : ∀ i < ps.length, symApply q.vDim q.V z (ps.length + i) = wdot (yAt ps i) q.dhInv r) :
    (bfgs q.sigma ps + diagonal dx) *ᵥ
      (fun t => q.dhInv t * (r t - comb q.sigma ps z (fun j => z (ps.length + j)) t)) = r := by
  have hm := mid_of_V v r z ht hb
  rw [add_mulVec, compact hs ps hp _ _ _ hm]
  funext t
  rw [Pi.add_apply, Pi.add_apply, Pi.smul_apply, mulVec_diagonal, smul_eq_mul]
  linear_combination (r t - comb q.sigma ps z (fun j => z (ps.length + j)) t) * hd t

/-- `B + diag dx` is positive definite. -/
theorem spd_add_diag {B : Matrix (Fin n) (Fin n) ℝ} (h : Spd B) {dx : RVec ℝ n}
    (hdx : ∀ i, 0 ≤ dx i) : Spd (B + diagonal dx) := by
  refine ⟨h.1.add (isSymm_diagonal dx), fun x hx => ?_⟩
  rw [add_mulVec, dotProduct_add]
  refine add_pos_of_pos_of_nonneg (h.2 x hx) (Finset.sum_nonneg fun i _ => ?_)
  rw [mulVec_diagonal]
  nlinarith [hdx i, mul_self_nonneg (x i), mul_nonneg (hdx i) (mul_self_nonneg (x i))]

theorem spd_inj {B : Matrix (Fin n) (Fin n) ℝ} (h : Spd B) {x : RVec ℝ n} (hx : B *ᵥ x = 0) :
    x = 0 := by
  by_contra hne
  have := h.2 x hne
  rw [hx, dotProduct_zero] at this
  exact lt_irrefl _ this

/-- The middle matrix is nonsingular. -/
theorem V_nonsingular {q : St n mc m} {ps : List (Pair n)} (v : VOk q ps) (hs : 0 < q.sigma)
    (hp : PosPairs ps) {dx : RVec ℝ n} (hdx : ∀ i, 0 ≤ dx i)
    (hd : ∀ t, (q.sigma + dx t) * q.dhInv t = 1) (z : ℕ → ℝ)
    (hz : ∀ r < q.vDim, symApply q.vDim q.V z r = 0) : ∀ r < q.vDim, z r = 0 := by
  have h0 : ∀ u d : RVec ℝ n, wdot u d 0 = 0 := fun u d => by rw [wdot_eq]; simp
  have ht : ∀ i < ps.length, symApply q.vDim q.V z i
      = wdot (sAt ps i) (fun t => q.sigma * q.dhInv t) 0 := fun i hi => by
    rw [h0]; exact hz i (by rw [v.dim]; omega)
  have hb : ∀ i < ps.length, symApply q.vDim q.V z (ps.length + i) = wdot (yAt ps i) q.dhInv 0 :=
    fun i hi => by rw [h0]; exact hz _ (by rw [v.dim]; omega)
  have hx := spd_inj (spd_add_diag (bfgs_spd hs ps hp) hdx) (solve_core v hs hp hd 0 z ht hb)
  have hm := mid_of_V v 0 z ht hb
  rw [hx] at hm
  have hu := mid_unique hs ps hp _ _ hm
  intro r hr
  rw [v.dim] at hr
  by_cases h : r < ps.length
  · exact (hu r h).1
  · have := (hu (r - ps.length) (by omega)).2
    rwa [show ps.length + (r - ps.length) = r by omega] at this

/-! ## Solves -/

/-- After the diagonal was set: the middle matrix is either due for rebuilding or current. -/
structure Ready (q : St n mc m) (ps : List (Pair n)) (dx : RVec ℝ n) : Prop where
  mem : MemOk q ps
  dh : ∀ t, q.dhInv t = 1 / (q.sigma + dx t)
  v : q.changed = true ∨ VOk q ps

theorem ready_diag {q : St n mc m} {ps : List (Pair n)} (h : MemOk q ps) (dx : RVec ℝ n) :
    Ready (updateLogBarrierDiagonal q dx) ps dx :=
  ⟨⟨h.S, h.Y, h.lDim, h.D, h.L⟩, fun t => by simp [updateLogBarrierDiagonal, axpy], .inl rfl⟩

theorem refresh_ready {q : St n mc m} {ps : List (Pair n)} {dx : RVec ℝ n} (h : Ready q ps dx) :
    ∃ q', refresh q = some q' ∧ Ready q' ps dx ∧ VOk q' ps ∧ q'.sigma = q.sigma := by
  unfold refresh
  by_cases hc : q.changed = true
  · rw [if_pos hc]
    obtain ⟨q', e, hv, h1, h2, h3⟩ := rep_ok h.mem
    refine ⟨q', e, ⟨h.mem.same (rep_same e), ?_, .inr hv⟩, hv, h1⟩
    intro t; rw [h1, h2]; exact h.dh t
  · rw [if_neg hc]
    rcases h.v with hv | hv
    · exact absurd hv hc
    · exact ⟨q, rfl, h, hv, rfl⟩

theorem solveWithV_spec {la : Lapack} (hla : LapackExact la) {q : St n mc m} {ps : List (Pair n)}
    (v : VOk q ps) {s y sp yp : ℕ → ℝ}
    (h : solveWithV la q ps.length s y = some (sp, yp)) :
    (∀ i < ps.length, symApply q.vDim q.V sp i = s i) ∧
    (∀ i < ps.length, symApply q.vDim q.V sp (ps.length + i) = y i) ∧
    (∀ i < ps.length, yp i = sp (ps.length + i)) := by
  unfold solveWithV at h
  split at h
  · rename_i h0
    rw [v.dim] at h0
    exact ⟨fun i hi => by omega, fun i hi => by omega, fun i hi => by omega⟩
  · obtain ⟨z, e, h⟩ := Option.bind_eq_some_iff.mp h
    simp only [Option.some.injEq, Prod.mk.injEq] at h
    obtain ⟨rfl, rfl⟩ := h
    have hx := hla _ _ _ _ e
    refine ⟨fun i hi => ?_, fun i hi => ?_, fun i _ => rfl⟩
    · rw [hx i (by rw [v.dim]; omega), if_pos hi]
    · rw [hx _ (by rw [v.dim]; omega), if_neg (by omega), Nat.add_sub_cancel_left]

theorem solveWithV_isSome {la : Lapack} (hla : LapackTotal la) {q : St n mc m} {ps : List (Pair n)}
    (v : VOk q ps) (hs : 0 < q.sigma) (hp : PosPairs ps) {dx : RVec ℝ n} (hdx : ∀ i, 0 ≤ dx i)
    (hd : ∀ t, (q.sigma + dx t) * q.dhInv t = 1) (l : ℕ) (s y : ℕ → ℝ) :
    ∃ a b, solveWithV la q l s y = some (a, b) := by
  unfold solveWithV
  split
  · exact ⟨_, _, rfl⟩
  · obtain ⟨z, hz⟩ := Option.isSome_iff_exists.mp
      (hla q.vDim q.V (fun a => if a < l then s a else y (a - l)) (V_nonsingular v hs hp hdx hd))
    rw [hz]; exact ⟨_, _, rfl⟩

theorem rowsTransTimes_eq (rows : List (RVec ℝ n)) (beta : ℝ) (y : RVec ℝ n) (x : ℕ → ℝ) :
    rowsTransTimes rows beta y x
      = beta • y + ∑ a ∈ Finset.range rows.length, x a • rows.getD a 0 := by
  funext i
  simp only [rowsTransTimes, Pi.add_apply, Pi.smul_apply, smul_eq_mul, Finset.sum_apply]
  congr 1
  exact Finset.sum_congr rfl fun a _ => by ring

theorem solve_ok {la : Lapack} (hla : LapackExact la) {q q' : St n mc m} {ps : List (Pair n)}
    {dx : RVec ℝ n} (h : Ready q ps dx) (hs : 0 < q.sigma) (hp : PosPairs ps)
    (hdx : ∀ t, q.sigma + dx t ≠ 0) {rhs x : RVec ℝ n} (he : solve la q rhs = some (q', x)) :
    (bfgs q.sigma ps + diagonal dx) *ᵥ x = rhs := by
  obtain ⟨q1, e1, hr, hv, hσ⟩ := refresh_ready h
  have hl : q1.S.length = ps.length := by rw [hr.mem.S]; simp
  have hlY : q1.Y.length = ps.length := by rw [hr.mem.Y]; simp
  unfold solve at he
  rw [e1] at he
  simp only [Option.bind_eq_bind, Option.bind_some, getD_S hr.mem, getD_Y hr.mem, hl] at he
  obtain ⟨⟨sp, yp⟩, e2, e3⟩ := Option.bind_eq_some_iff.mp he
  simp only [Option.some.injEq, Prod.mk.injEq] at e3
  obtain ⟨h1, h2, h3⟩ := solveWithV_spec hla hv e2
  have hd : ∀ t, (q1.sigma + dx t) * q1.dhInv t = 1 := fun t => by
    rw [hr.dh t, mul_one_div_cancel]; rw [hσ]; exact hdx t
  have hx : x = fun t => q1.dhInv t * (rhs t - comb q1.sigma ps sp (fun j => sp (ps.length + j)) t) := by
    rw [← e3.2, comb_eq]
    have ey : ∑ a ∈ Finset.range ps.length, yp a • yAt ps a
        = ∑ a ∈ Finset.range ps.length, sp (ps.length + a) • yAt ps a :=
      Finset.sum_congr rfl fun a ha => by rw [h3 a (Finset.mem_range.mp ha)]
    funext t
    rw [rowsTransTimes_eq, rowsTransTimes_eq, hl, hlY]
    simp only [getD_S hr.mem, getD_Y hr.mem, ey, axpy, componentMult, Pi.add_apply, Pi.smul_apply,
      scale_apply, smul_eq_mul, zero_mul, zero_add, one_mul]
    ring
  rw [hx, ← hσ]
  refine solve_core hv (by rw [hσ]; exact hs) hp hd rhs sp (fun i hi => ?_) (fun i hi => ?_)
  · rw [h1 i hi, dot_eq', wdot_eq]
    exact Finset.sum_congr rfl fun t _ => by rw [scale_apply]; simp only [componentMult]; ring
  · rw [h2 i hi, dot_eq', wdot_eq]
    exact Finset.sum_congr rfl fun t _ => by simp only [componentMult]; ring

theorem solve_isSome {la : Lapack} (hla : LapackTotal la) {q : St n mc m} {ps : List (Pair n)}
    {dx : RVec ℝ n} (h : Ready q ps dx) (hs : 0 < q.sigma) (hp : PosPairs ps)
    (hdx : ∀ t, 0 ≤ dx t) (rhs : RVec ℝ n) : ∃ q' x, solve la q rhs = some (q', x) := by
  obtain ⟨q1, e1, hr, hv, hσ⟩ := refresh_ready h
  have hd : ∀ t, (q1.sigma + dx t) * q1.dhInv t = 1 := fun t => by
    rw [hr.dh t, mul_one_div_cancel]; rw [hσ]; linarith [hdx t]
  unfold solve
  rw [e1]
  simp only [Option.bind_eq_bind, Option.bind_some]
  obtain ⟨a, b, e⟩ := solveWithV_isSome hla hv (by rw [hσ]; exact hs) hp hdx hd q1.S.length
    (fun a => dot (q1.S.getD a 0) (scale (componentMult rhs q1.dhInv) q1.sigma))
    (fun a => dot (q1.Y.getD a 0) (componentMult rhs q1.dhInv))
  rw [e]
  exact ⟨_, _, rfl⟩

/-! ## The constraint matrix -/

theorem mapM_getD {α β : Type*} (f : α → Option β) (d : β) :
    ∀ (l : List α) (r : List β), l.mapM f = some r →
      ∀ i (h : i < l.length), f l[i] = some (r.getD i d) := by
  intro l
  induction l with
  | nil => intro r _ i h; simp at h
  | cons a l ih =>
    intro r hr i h
    rw [List.mapM_cons] at hr
    obtain ⟨b, e1, hr⟩ := Option.bind_eq_some_iff.mp hr
    obtain ⟨r', e2, hr⟩ := Option.bind_eq_some_iff.mp hr
    obtain rfl : b :: r' = r := by simpa using hr
    cases i with
    | zero => simpa using e1
    | succ i => simpa using ih r' e2 i (by simpa using h)

theorem mapM_isSome {α β : Type*} (f : α → Option β) (hf : ∀ a, (f a).isSome) (l : List α) :
    ∃ r, l.mapM f = some r := by
  induction l with
  | nil => exact ⟨[], rfl⟩
  | cons a l ih =>
    obtain ⟨r, hr⟩ := ih
    obtain ⟨b, hb⟩ := Option.isSome_iff_exists.mp (hf a)
    rw [List.mapM_cons, hb, hr]
    exact ⟨_, rfl⟩

theorem symMatDiag_apply (beta : ℝ) (W : NMat ℝ) (alpha : ℝ) (X : ℕ → RVec ℝ n) (d : RVec ℝ n)
    (i j : ℕ) : symMatDiag beta W alpha X d i j
      = beta * W (min i j) (max i j) + alpha * wdot (X i) d (X j) := by
  unfold symMatDiag
  rcases le_total i j with h | h
  · rw [min_eq_left h, max_eq_right h]
  · rw [min_eq_right h, max_eq_left h, wdot_comm]

theorem inverse_ok {la : Lapack} (hla : LapackExact la) {q q' : St n mc m} {ps : List (Pair n)}
    {dx : RVec ℝ n} (h : Ready q ps dx) (hs : 0 < q.sigma) (hp : PosPairs ps)
    (hdx : ∀ t, q.sigma + dx t ≠ 0) {beta alpha : ℝ} {W W' : NMat ℝ}
    {X : ℕ → RVec ℝ n} (he : symMatTimesInverse la q k beta W alpha X = some (q', W'))
    (Binv : Matrix (Fin n) (Fin n) ℝ) (hB : Binv * (bfgs q.sigma ps + diagonal dx) = 1) :
    ∀ i < k, ∀ j < k, W' i j
      = beta * W (min i j) (max i j) + alpha * (X i ⬝ᵥ Binv *ᵥ X j) := by
  obtain ⟨q1, e1, hr, hv, hσ⟩ := refresh_ready h
  have hl : q1.S.length = ps.length := by rw [hr.mem.S]; simp
  have hd : ∀ t, (q1.sigma + dx t) * q1.dhInv t = 1 := fun t => by
    rw [hr.dh t, mul_one_div_cancel]; rw [hσ]; exact hdx t
  unfold symMatTimesInverse at he
  rw [e1] at he
  simp only [Option.bind_eq_bind, Option.bind_some, getD_S hr.mem, getD_Y hr.mem, hl] at he
  obtain ⟨rows, e2, e3⟩ := Option.bind_eq_some_iff.mp he
  simp only [Option.some.injEq, Prod.mk.injEq] at e3
  intro i _ j hj
  have hrow := mapM_getD _ ((0, 0) : (ℕ → ℝ) × (ℕ → ℝ)) _ _ e2 j (by simpa using hj)
  rw [List.getElem_range] at hrow
  set sp := (rows.getD j (0, 0)).1 with hsp
  set yp := (rows.getD j (0, 0)).2 with hyp
  obtain ⟨h1, h2, h3⟩ := solveWithV_spec (sp := sp) (yp := yp) hla hv hrow
  have hsc : scale q1.dhInv q1.sigma = fun t => q1.sigma * q1.dhInv t := by
    funext t; rw [scale_apply]
  have hsol := solve_core hv (by rw [hσ]; exact hs) hp hd (X j) sp
    (fun a ha => by rw [h1 a ha, matDiag, hsc, wdot_comm])
    (fun a ha => by rw [h2 a ha, matDiag, wdot_comm])
  rw [hσ] at hsol
  have hBx := congrArg (Binv *ᵥ ·) hsol
  simp only [mulVec_mulVec, hB, one_mulVec] at hBx
  rw [← hBx, ← e3.2]
  simp only [← hsp, ← hyp, matDiag, hsc]
  rw [symMatDiag_apply, comb_eq]
  have f1 : ∑ a ∈ Finset.range ps.length,
      wdot (X i) (fun t => q1.sigma * q1.dhInv t) (sAt ps a) * sp a
      = wdot (X i) (fun t => q1.sigma * q1.dhInv t) (∑ a ∈ Finset.range ps.length, sp a • sAt ps a) :=
    wdot_sum _ _ _ _ _
  have f2 : ∑ a ∈ Finset.range ps.length, wdot (X i) q1.dhInv (yAt ps a) * yp a
      = wdot (X i) q1.dhInv (∑ a ∈ Finset.range ps.length, sp (ps.length + a) • yAt ps a) := by
    rw [← wdot_sum]
    exact Finset.sum_congr rfl fun a ha => by rw [h3 a (Finset.mem_range.mp ha)]
  rw [f1, f2]
  set sa := ∑ a ∈ Finset.range ps.length, sp a • sAt ps a
  set yb := ∑ a ∈ Finset.range ps.length, sp (ps.length + a) • yAt ps a
  have f3 : (X i ⬝ᵥ fun t => q1.dhInv t * (X j t - (q.sigma • sa + yb) t))
      = wdot (X i) q1.dhInv (X j) - wdot (X i) (fun t => q1.sigma * q1.dhInv t) sa
        - wdot (X i) q1.dhInv yb := by
    rw [wdot_eq, wdot_eq, wdot_eq, ← Finset.sum_sub_distrib, ← Finset.sum_sub_distrib, dotProduct]
    refine Finset.sum_congr rfl fun t _ => ?_
    rw [hσ]
    simp only [Pi.add_apply, Pi.smul_apply, smul_eq_mul]
    ring
  rw [hσ] at f3 ⊢
  rw [f3]
  ring

theorem inverse_isSome {la : Lapack} (hla : LapackTotal la) {q : St n mc m} {ps : List (Pair n)}
    {dx : RVec ℝ n} (h : Ready q ps dx) (hs : 0 < q.sigma) (hp : PosPairs ps)
    (hdx : ∀ t, 0 ≤ dx t) (beta alpha : ℝ) (W : NMat ℝ) (X : ℕ → RVec ℝ n) :
    ∃ q' W', symMatTimesInverse la q k beta W alpha X = some (q', W') := by
  obtain ⟨q1, e1, hr, hv, hσ⟩ := refresh_ready h
  have hd : ∀ t, (q1.sigma + dx t) * q1.dhInv t = 1 := fun t => by
    rw [hr.dh t, mul_one_div_cancel]; rw [hσ]; linarith [hdx t]
  unfold symMatTimesInverse
  rw [e1]
  simp only [Option.bind_eq_bind, Option.bind_some]
  obtain ⟨rows, hrows⟩ := mapM_isSome (fun i => solveWithV la q1 q1.S.length
      (matDiag X (scale q1.dhInv q1.sigma) (fun j => q1.S.getD j 0) i)
      (matDiag X q1.dhInv (fun j => q1.Y.getD j 0) i)) (fun i => by
        obtain ⟨a, b, e⟩ := solveWithV_isSome hla hv (by rw [hσ]; exact hs) hp hdx hd q1.S.length
          (matDiag X (scale q1.dhInv q1.sigma) (fun j => q1.S.getD j 0) i)
          (matDiag X q1.dhInv (fun j => q1.Y.getD j 0) i)
        rw [e]; rfl) (List.range k)
  rw [hrows]
  exact ⟨_, _, rfl⟩

/-! ## Products -/

/-- One term of the product loop. -/
noncomputable def addAB (alpha : ℝ) (v : RVec ℝ n) (y : RVec ℝ n) (ab : RVec ℝ n × RVec ℝ n) :
    RVec ℝ n :=
  axpy (axpy y (alpha * dot ab.2 v) ab.2) (-alpha * dot ab.1 v) ab.1

theorem ab_fold {eps sigma : ℝ} (hs : 0 < sigma) (ps : List (Pair n)) (hp : PosPairs ps)
    (he : ∀ p ∈ ps, eps ≤ p.1 ⬝ᵥ p.2) (alpha : ℝ) (v w : RVec ℝ n) :
    (ps.foldl (abStep eps sigma) []).foldl (addAB alpha v) w
      = w + alpha • (bfgs sigma ps *ᵥ v - sigma • v) := by
  induction ps using List.reverseRecOn generalizing alpha v w with
  | nil => simp [bfgs, smul_mulVec]
  | append_singleton ps p ih =>
    have hp' : PosPairs ps := fun q hq => hp q (by simp [hq])
    have he' : ∀ q ∈ ps, eps ≤ q.1 ⬝ᵥ q.2 := fun q hq => he q (by simp [hq])
    have hc : 0 < p.1 ⬝ᵥ p.2 := hp p (by simp)
    have hne : p.1 ≠ 0 := by
      intro h; rw [h] at hc; simp at hc
    have hB := bfgs_spd hs ps hp'
    have hq := hB.2 _ hne
    have ih := ih hp' he'
    set acc := ps.foldl (abStep eps sigma) [] with hacc
    have hstep : abStep eps sigma acc p = acc ++ [(scale (bfgs sigma ps *ᵥ p.1)
        (1 / Real.sqrt (dot (bfgs sigma ps *ᵥ p.1) p.1)), scale p.2 (1 / Real.sqrt (p.1 ⬝ᵥ p.2)))] := by
      unfold abStep
      have e1 : dot p.2 p.1 = p.1 ⬝ᵥ p.2 := by rw [dot_eq, dotProduct_comm]
      have e2 : ¬ p.1 ⬝ᵥ p.2 < eps := not_lt.mpr (he p (by simp))
      have e3 : acc.foldl (fun a ab => axpy (axpy a (dot ab.2 p.1) ab.2) (-dot ab.1 p.1) ab.1)
          (scale p.1 sigma) = bfgs sigma ps *ᵥ p.1 := by
        have : (fun (a : RVec ℝ n) (ab : RVec ℝ n × RVec ℝ n) =>
            axpy (axpy a (dot ab.2 p.1) ab.2) (-dot ab.1 p.1) ab.1) = addAB 1 p.1 := by
          funext a ab
          unfold addAB
          rw [one_mul, neg_one_mul]
        rw [this, ih 1 p.1]
        funext t
        rw [Pi.add_apply, scale_apply, one_smul, Pi.sub_apply, Pi.smul_apply, smul_eq_mul]
        ring
      simp only [e1, if_neg e2, e3]
    rw [List.foldl_append, List.foldl_cons, List.foldl_nil, ← hacc, hstep, List.foldl_append, ih,
      bfgs_snoc, bfgsUpd_mulVec]
    funext t
    have hq' : dot (bfgs sigma ps *ᵥ p.1) p.1 = p.1 ⬝ᵥ bfgs sigma ps *ᵥ p.1 := by
      rw [dot_eq, dotProduct_comm]
    have d1 : ∀ (u : RVec ℝ n) (c : ℝ), dot (scale u c) v = c * (u ⬝ᵥ v) := by
      intro u c
      rw [dot_eq', dotProduct, Finset.mul_sum]
      exact Finset.sum_congr rfl fun i _ => by rw [scale_apply]; ring
    simp only [List.foldl_cons, List.foldl_nil, addAB, axpy, hq', d1, scale_apply, Pi.add_apply,
      Pi.smul_apply, Pi.sub_apply, smul_eq_mul]
    have s1 : 1 / Real.sqrt (p.1 ⬝ᵥ p.2) * (1 / Real.sqrt (p.1 ⬝ᵥ p.2)) = 1 / (p.1 ⬝ᵥ p.2) := by
      rw [one_div_mul_one_div, Real.mul_self_sqrt hc.le]
    have s2 : 1 / Real.sqrt (p.1 ⬝ᵥ bfgs sigma ps *ᵥ p.1)
        * (1 / Real.sqrt (p.1 ⬝ᵥ bfgs sigma ps *ᵥ p.1)) = 1 / (p.1 ⬝ᵥ bfgs sigma ps *ᵥ p.1) := by
      rw [one_div_mul_one_div, Real.mul_self_sqrt hq.le]
    linear_combination alpha * (p.2 ⬝ᵥ v) * p.2 t * s1
      - alpha * (bfgs sigma ps *ᵥ p.1 ⬝ᵥ v) * (bfgs sigma ps *ᵥ p.1) t * s2

theorem times_ok {eps : ℝ} {q : St n mc m} {ps : List (Pair n)} (h : MemOk q ps)
    (hl : q.lCurr = ps.length) (hs : 0 < q.sigma) (hp : PosPairs ps)
    (he : ∀ p ∈ ps, eps ≤ p.1 ⬝ᵥ p.2) (beta alpha : ℝ) (x y : RVec ℝ n) (lt : Bool) :
    timesVecCmn eps q beta y alpha x lt
      = some (beta • y + alpha • ((bfgs q.sigma ps
          + if lt = true then diagonal q.dx else 0) *ᵥ x)) := by
  have hS : q.S.length = ps.length := by rw [h.S]; simp
  have hz : q.S.zip q.Y = ps := by rw [h.S, h.Y, List.zip_map']; simp
  unfold timesVecCmn
  rw [if_pos (by rw [hl, hS])]
  simp only [Option.some.injEq, hz]
  have hf := ab_fold hs ps hp he alpha x
  unfold addAB at hf
  rw [hf]
  funext t
  have ax : ∀ y : RVec ℝ n, axzpy y alpha x q.dx t = y t + alpha * x t * q.dx t := by
    intro y
    unfold axzpy
    split
    · rename_i h; rw [h]; ring
    · split
      · rename_i h; rw [h]; ring
      · split
        · rfl
        · rename_i h; push Not at h; rw [h]; ring
  cases lt
  · simp only [Bool.false_eq_true, if_false, add_zero, axpy, scale_apply, Pi.add_apply, Pi.smul_apply,
      Pi.sub_apply, smul_eq_mul]
    ring
  · simp only [if_true, axpy, ax, scale_apply, Pi.add_apply, Pi.smul_apply, Pi.sub_apply, smul_eq_mul,
      add_mulVec, mulVec_diagonal]
    ring

end Hiop.QN
