import Verif.Kkt.Inertia
import Verif.Resid.Descent

/-! # C53, C54: what an accepted factorization guarantees, and when regularization suffices -/

namespace Hiop.Kkt

open Matrix Hiop.Vec Hiop.Iterate Hiop.Lin

set_option linter.unusedSectionVars false

variable {n mc m ns nd : ℕ}

theorem toMats_symm (B : MdsMats ℝ ns nd mc m) (hH : ∀ i j, B.Hd i j = B.Hd j i) : SymH B.toMats := by
  intro i j
  refine Fin.addCases (fun i => ?_) (fun i => ?_) i <;> refine Fin.addCases (fun j => ?_) (fun j => ?_) j
  · simp only [MdsMats.toMats, Fin.addCases_left]
    by_cases h : i = j
    · rw [h]
    · rw [if_neg h, if_neg (Ne.symm h)]
  · simp [MdsMats.toMats]
  · simp [MdsMats.toMats]
  · simp [MdsMats.toMats, hH i j]

/-! ## The count -/

/-- DSYTRF keeps its contract on every matrix. -/
def FactOk (N : ℕ) (fact : NMat ℝ → Factor ℝ) : Prop :=
  ∀ W, (fact W).info = 0 → FactorOf N (symOf N W) (fact W)

/-- **C53, the count for mixed dense-sparse problems.** A nonnegative count is the number of negative
eigenvalues of the matrix of the whole (x, yc, yd) system, sparse and dense variables together, and
that matrix is nonsingular. Partial: no diagonal entry of the sparse block is exactly at the threshold
(see `C53_mds_threshold_false`). -/
theorem C53_mds_count_partial (B : MdsMats ℝ ns nd mc m) (dx : RVec ℝ (ns + nd))
    (ddInv : Deltas ℝ (ns + nd) mc m → RVec ℝ m) (fact : NMat ℝ → Factor ℝ)
    (dl : Deltas ℝ (ns + nd) mc m) (hH : ∀ i j, B.Hd i j = B.Hd j i)
    (hf : FactOk (nd + mc + m) fact)
    (hthr : ∀ i, mdsHxs B dx dl.wx i ≠ -pivTol) (h0 : 0 ≤ mdsPass B dx ddInv fact dl) :
    (kkt3 B.toMats (fun i => dx i + dl.wx i) dl.cc (fun i => ddInv dl i + dl.cd i)).det ≠ 0 ∧
    mdsPass B dx ddInv fact dl =
      negEigs _ (kkt3_symm (toMats_symm B hH) (fun i => dx i + dl.wx i) dl.cc
        (fun i => ddInv dl i + dl.cd i)) := by
  set W := mdsMatrix B dl dx (ddInv dl) with hW
  set hxs := mdsHxs B dx dl.wx with hhxs
  obtain ⟨r, hr, hr1, -⟩ := C52_answers (symOf (nd + mc + m) W) (fact W) (hf W)
  have hpass : mdsPass B dx ddInv fact dl = mdsCount r hxs := by
    unfold mdsPass
    rw [← hW, hr]
    rfl
  rw [hpass] at h0 ⊢
  have hpt : (0 : ℝ) < pivTol := pivTol_pos
  -- the dense solver did not report a problem
  have hr0 : 0 ≤ r := by
    by_contra hneg
    have : mdsCount r hxs = r := by
      unfold mdsCount
      simp only [ge_iff_le, hneg, if_false, lt_irrefl]
    rw [this] at h0
    omega
  have hz : ¬ 0 < numAbsLess hxs pivTol := by
    intro hc
    have : mdsCount r hxs = -1 := by
      unfold mdsCount
      simp [hr0, hc]
    rw [this] at h0
    omega
  have habs : ∀ i, pivTol ≤ |hxs i| := by
    intro i
    by_contra hc
    push Not at hc
    exact hz (Finset.card_pos.mpr ⟨i, by simpa using hc⟩)
  have hne : ∀ i, hxs i ≠ 0 := fun i h => by
    have := habs i
    rw [h, abs_zero] at this
    linarith
  have hcnt : mdsCount r hxs = r + numLess hxs (-pivTol) := by
    unfold mdsCount
    simp only [ge_iff_le, hr0, if_true, if_neg hz]
    split_ifs <;> omega
  have hnum : numLess hxs (-pivTol) = (Finset.univ.filter fun i => hxs i < 0).card := by
    unfold numLess
    congr 1
    ext i
    simp only [Finset.mem_filter, Finset.mem_univ, true_and]
    constructor
    · intro h; linarith
    · intro h
      have := habs i
      rw [abs_of_neg h] at this
      exact lt_of_le_of_ne (by linarith) (hthr i)
  obtain ⟨hd, hn⟩ := C52_inertia (symOf (nd + mc + m) W) (symOf_symm _ _) (fact W) (hf W) r hr hr0
  obtain ⟨k1, k2⟩ := mds_inertia B dl dx (ddInv dl) hH hne (toMats_symm B hH) hd
  refine ⟨k1, ?_⟩
  rw [hcnt, k2, hn, hnum]
  push_cast
  ring

/-! ## Acceptance and curvature -/

/-- **C53, curvature.** If the matrix of the (x, yc, yd) system is nonsingular with as many negative
eigenvalues as constraints, then the regularized Hessian of the barrier problem is positive on the
null space of the equality constraints, where the inequality constraints enter through their slacks.
-/
theorem C53_curvature (M : Mats ℝ n mc m) (hH : SymH M) (gx : RVec ℝ n) (g : RVec ℝ m)
    (hg : ∀ i, 0 < g i) (hd : (kkt3 M gx (fun _ => 0) (fun i => 1 / g i)).det ≠ 0)
    (hn : negEigs _ (kkt3_symm hH gx (fun _ => 0) (fun i => 1 / g i)) = mc + m)
    (x : RVec ℝ n) (hx : x ≠ 0) (hJ : ∀ i, ∑ j, M.Jc i j * x j = 0) :
    0 < (∑ i, x i * ((∑ j, M.H i j * x j) + gx i * x i)) + ∑ i, g i * (∑ j, M.Jd i j * x j) ^ 2 := by
  have h := saddle_curvature (M.H + diagonal gx) (hess_symm hH gx) (stackedJ M)
    (Sum.elim (fun _ => 0) fun i => 1 / g i) (by
      rintro (k | k)
      · exact le_refl 0
      · exact (one_div_pos.mpr (hg k)).le) hd (by rw [Fintype.card_sum, Fintype.card_fin, Fintype.card_fin]; exact hn)
    x (Sum.elim (fun _ => 0) fun i => g i * ∑ j, M.Jd i j * x j) hx (by
      rintro (k | k)
      · have := hJ k
        simpa [mulVec, dotProduct, stackedJ_inl] using this
      · have := (hg k).ne'
        simp only [mulVec, dotProduct, stackedJ_inr, Sum.elim_inr]
        field_simp)
  refine lt_of_lt_of_eq h ?_
  congr 1
  · simp only [dotProduct, add_mulVec, Pi.add_apply, mulVec_diagonal]
    rfl
  · simp only [dotProduct, Fintype.sum_sum_type, mulVec, stackedJ_inl, stackedJ_inr, Sum.elim_inl, Sum.elim_inr,
      zero_mul, Finset.sum_const_zero, zero_add]
    exact Finset.sum_congr rfl fun i _ => by ring

/-- The same with dual regularization: the form that enters adds the regularization terms. -/
theorem C53_curvature_regularized (M : Mats ℝ n mc m) (hH : SymH M) (gx : RVec ℝ n) (cc : RVec ℝ mc)
    (gd : RVec ℝ m) (hc : ∀ i, 0 ≤ cc i) (hg : ∀ i, 0 ≤ gd i) (hd : (kkt3 M gx cc gd).det ≠ 0)
    (hn : negEigs _ (kkt3_symm hH gx cc gd) = mc + m)
    (x : RVec ℝ n) (yc : RVec ℝ mc) (yd : RVec ℝ m) (hx : x ≠ 0)
    (hJc : ∀ i, ∑ j, M.Jc i j * x j = cc i * yc i) (hJd : ∀ i, ∑ j, M.Jd i j * x j = gd i * yd i) :
    0 < (∑ i, x i * ((∑ j, M.H i j * x j) + gx i * x i)) + (∑ i, cc i * yc i ^ 2) + ∑ i, gd i * yd i ^ 2 := by
  have h := saddle_curvature (M.H + diagonal gx) (hess_symm hH gx) (stackedJ M)
    (Sum.elim cc gd) (by
      rintro (k | k)
      · exact hc k
      · exact hg k) hd (by rw [Fintype.card_sum, Fintype.card_fin, Fintype.card_fin]; exact hn)
    x (Sum.elim yc yd) hx (by
      rintro (k | k)
      · exact hJc k
      · exact hJd k)
  refine lt_of_lt_of_eq h ?_
  rw [add_assoc]
  congr 1
  · simp only [dotProduct, add_mulVec, Pi.add_apply, mulVec_diagonal]
    rfl
  · simp only [dotProduct, Fintype.sum_sum_type, mulVec, stackedJ_inl, stackedJ_inr, Sum.elim_inl, Sum.elim_inr,
      hJc, hJd]
    congr 1 <;> exact Finset.sum_congr rfl fun i _ => by ring

/-! ## The two symmetric systems agree -/

/-- The projection that forgets the inequality slacks. -/
def forgetD : ((Fin n ⊕ Fin m) ⊕ (Fin mc ⊕ Fin m) → ℝ) →ₗ[ℝ] (Fin n ⊕ (Fin mc ⊕ Fin m) → ℝ) :=
  LinearMap.funLeft ℝ ℝ (Sum.elim (fun i => Sum.inl (Sum.inl i)) fun k => Sum.inr k)

theorem split3 (z : Fin n ⊕ (Fin mc ⊕ Fin m) → ℝ) :
    z = Sum.elim (fun i => z (Sum.inl i)) (Sum.elim (fun i => z (Sum.inr (Sum.inl i)))
      fun i => z (Sum.inr (Sum.inr i))) := by
  funext k; rcases k with k | k | k <;> rfl

theorem split4 (z : (Fin n ⊕ Fin m) ⊕ (Fin mc ⊕ Fin m) → ℝ) :
    z = Sum.elim (Sum.elim (fun i => z (Sum.inl (Sum.inl i))) fun i => z (Sum.inl (Sum.inr i)))
      (Sum.elim (fun i => z (Sum.inr (Sum.inl i))) fun i => z (Sum.inr (Sum.inr i))) := by
  funext k; rcases k with (k | k) | k | k <;> rfl

/-- **C53, the two reductions.** With positive slack diagonal, the (x, d, yc, yd) matrix and the
(x, yc, yd) matrix are singular together and have the same number of negative eigenvalues. -/
theorem C53_same_inertia (M : Mats ℝ n mc m) (hH : SymH M) (gx : RVec ℝ n) (g : RVec ℝ m)
    (hg : ∀ i, 0 < g i) (cc : RVec ℝ mc) (cd : RVec ℝ m) :
    ((kkt4 M gx g cc cd).det ≠ 0 ↔ (kkt3 M gx cc fun i => 1 / g i + cd i).det ≠ 0) ∧
    ((kkt4 M gx g cc cd).det ≠ 0 →
      negEigs _ (kkt4_symm hH gx g cc cd) = negEigs _ (kkt3_symm hH gx cc fun i => 1 / g i + cd i)) := by
  have key : (kkt3 M gx cc fun i => 1 / g i + cd i).det ≠ 0 → (kkt4 M gx g cc cd).det ≠ 0 ∧
      negEigs _ (kkt4_symm hH gx g cc cd) = negEigs _ (kkt3_symm hH gx cc fun i => 1 / g i + cd i) := by
    intro hd
    have h := inertia_additive (kkt4 M gx g cc cd) (kkt4_symm hH gx g cc cd)
      (kkt3 M gx cc fun i => 1 / g i + cd i) (kkt3_symm hH gx cc fun i => 1 / g i + cd i) hd
      (fun i : Fin m => (LinearMap.proj (Sum.inl (Sum.inr i)) : _ →ₗ[ℝ] ℝ)
        - (1 / g i) • (LinearMap.proj (Sum.inr (Sum.inr i)) : _ →ₗ[ℝ] ℝ)) forgetD g (fun i => (hg i).ne')
      (by simp only [Fintype.card_sum, Fintype.card_fin]; ring)
      (by
        intro z h1 h2
        have e : ∀ k, forgetD z k = 0 := fun k => congrFun h2 k
        funext k
        rcases k with (k | k) | k
        · exact e (Sum.inl k)
        · have := h1 k
          have h3 := e (Sum.inr (Sum.inr k))
          simp only [LinearMap.sub_apply, LinearMap.smul_apply, LinearMap.proj_apply, smul_eq_mul] at this
          change z (Sum.inr (Sum.inr k)) = 0 at h3
          rw [h3] at this
          simpa using this
        · exact e (Sum.inr k))
      (by
        intro z
        rw [split4 z]
        generalize (fun i => z (Sum.inl (Sum.inl i))) = x
        generalize (fun i => z (Sum.inl (Sum.inr i))) = d
        generalize (fun i => z (Sum.inr (Sum.inl i))) = yc
        generalize (fun i => z (Sum.inr (Sum.inr i))) = yd
        have hf : forgetD (Sum.elim (Sum.elim x d) (Sum.elim yc yd)) = Sum.elim x (Sum.elim yc yd) := by
          funext k; rcases k with k | k | k <;> rfl
        rw [hf, kkt4_mulVec, kkt3_mulVec]
        simp only [sumElim_dotProduct_sumElim, LinearMap.sub_apply, LinearMap.smul_apply, LinearMap.proj_apply,
          Sum.elim_inl, Sum.elim_inr, smul_eq_mul]
        have e1 : (d ⬝ᵥ fun i => g i * d i - yd i) +
            (yd ⬝ᵥ fun i => (∑ j, M.Jd i j * x j) - d i - cd i * yd i) =
            ∑ i, g i * (d i - 1 / g i * yd i) ^ 2 +
              yd ⬝ᵥ fun i => (∑ j, M.Jd i j * x j) - (1 / g i + cd i) * yd i := by
          simp only [dotProduct, ← Finset.sum_add_distrib]
          refine Finset.sum_congr rfl fun i _ => ?_
          have := (hg i).ne'
          field_simp
          ring
        linear_combination e1)
    refine ⟨h.1, ?_⟩
    rw [h.2]
    have : (Finset.univ.filter fun i => g i < 0) = ∅ := by
      ext i
      simpa using (hg i).le
    rw [this]
    simp
  have back : (kkt4 M gx g cc cd).det ≠ 0 → (kkt3 M gx cc fun i => 1 / g i + cd i).det ≠ 0 := by
    intro hd h0
    obtain ⟨z, hz, hz0⟩ := exists_mulVec_eq_zero_iff.mpr h0
    rw [split3 z] at hz0
    refine hd (exists_mulVec_eq_zero_iff.mp ⟨Sum.elim (Sum.elim (fun i => z (Sum.inl i))
      fun i => z (Sum.inr (Sum.inr i)) / g i) (Sum.elim (fun i => z (Sum.inr (Sum.inl i)))
      fun i => z (Sum.inr (Sum.inr i))), ?_, ?_⟩)
    · intro h
      refine hz ?_
      funext k
      rcases k with k | k | k
      · exact congrFun h (Sum.inl (Sum.inl k))
      · exact congrFun h (Sum.inr (Sum.inl k))
      · exact congrFun h (Sum.inr (Sum.inr k))
    · rw [kkt3_mulVec] at hz0
      rw [kkt4_mulVec]
      funext k
      rcases k with (k | k) | k | k
      · exact congrFun hz0 (Sum.inl k)
      · have := (hg k).ne'
        simp only [Sum.elim_inl, Sum.elim_inr, Pi.zero_apply]
        field_simp
        ring
      · exact congrFun hz0 (Sum.inr (Sum.inl k))
      · have h1 := congrFun hz0 (Sum.inr (Sum.inr k))
        simp only [Sum.elim_inr, Pi.zero_apply] at h1 ⊢
        rw [← h1]
        ring
  exact ⟨⟨back, fun h => (key h).1⟩, fun h => (key (back h)).2⟩

/-! ## Regularization -/

/-- The matrix is nonsingular and has as many negative eigenvalues as constraints. -/
def RightInertia (M : Mats ℝ n mc m) (hH : SymH M) (gx : RVec ℝ n) (cc : RVec ℝ mc) (gd : RVec ℝ m) : Prop :=
  (kkt3 M gx cc gd).det ≠ 0 ∧ negEigs _ (kkt3_symm hH gx cc gd) = mc + m

theorem right4 (M : Mats ℝ n mc m) (hH : SymH M) (gx : RVec ℝ n) (g : RVec ℝ m)
    (hg : ∀ i, 0 < g i) (cc : RVec ℝ mc) (cd : RVec ℝ m) :
    RightInertia M hH gx cc (fun i => 1 / g i + cd i) ↔
    (kkt4 M gx g cc cd).det ≠ 0 ∧ negEigs _ (kkt4_symm hH gx g cc cd) = mc + m := by
  obtain ⟨h1, h2⟩ := C53_same_inertia M hH gx g hg cc cd
  constructor
  · rintro ⟨a, b⟩
    exact ⟨h1.mpr a, (h2 (h1.mpr a)).trans b⟩
  · rintro ⟨a, b⟩
    exact ⟨h1.mp a, (h2 a).symm.trans b⟩

theorem hess4_form (M : Mats ℝ n mc m) (gx : RVec ℝ n) (g : RVec ℝ m) (z : Fin n ⊕ Fin m → ℝ) :
    z ⬝ᵥ (fromBlocks (M.H + diagonal gx) 0 0 (diagonal g)) *ᵥ z =
      (fun i => z (Sum.inl i)) ⬝ᵥ M.H *ᵥ (fun i => z (Sum.inl i)) + ∑ i, gx i * z (Sum.inl i) ^ 2 +
        ∑ i, g i * z (Sum.inr i) ^ 2 := by
  have hz : z = Sum.elim (fun i => z (Sum.inl i)) fun i => z (Sum.inr i) := by
    funext k; rcases k with k | k <;> rfl
  rw [hz, fromBlocks_mulVec]
  simp only [Sum.elim_comp_inl, Sum.elim_comp_inr, sumElim_dotProduct_sumElim, zero_mulVec, add_zero, zero_add,
    add_mulVec, dotProduct_add, Sum.elim_inl, Sum.elim_inr]
  have e : ∀ {p : ℕ} (v w : RVec ℝ p), w ⬝ᵥ diagonal v *ᵥ w = ∑ i, v i * w i ^ 2 := by
    intro p v w
    simp only [dotProduct, mulVec_diagonal]
    exact Finset.sum_congr rfl fun i _ => by ring
  rw [e, e]

/-- **C54, larger primal perturbations never spoil an acceptable matrix.** -/
theorem C54_monotone (M : Mats ℝ n mc m) (hH : SymH M) (gx gx' : RVec ℝ n) (g g' : RVec ℝ m)
    (cc : RVec ℝ mc) (cd : RVec ℝ m) (hg : ∀ i, 0 < g i) (hxx : ∀ i, gx i ≤ gx' i) (hgg : ∀ i, g i ≤ g' i)
    (hcc : ∀ i, 0 ≤ cc i) (hcd : ∀ i, 0 ≤ cd i)
    (h : RightInertia M hH gx cc fun i => 1 / g i + cd i) :
    RightInertia M hH gx' cc fun i => 1 / g' i + cd i := by
  rw [right4 M hH gx g hg] at h
  rw [right4 M hH gx' g' fun i => lt_of_lt_of_le (hg i) (hgg i)]
  have := saddle_mono _ _ (hess4_symm hH gx g) (hess4_symm hH gx' g') (slackJ M) (Sum.elim cc cd)
    (by rintro (k | k); exacts [hcc k, hcd k]) (fun z => by
      rw [hess4_form, hess4_form]
      gcongr with i _ i _
      · exact hxx i
      · exact hgg i) h.1 (by
      rw [Fintype.card_sum, Fintype.card_fin, Fintype.card_fin]; exact h.2)
  rw [Fintype.card_sum, Fintype.card_fin, Fintype.card_fin] at this
  exact this

/-- The gradients of the equality constraints are independent, apart from the constraints with a
positive regularization. -/
def EqIndep (M : Mats ℝ n mc m) (cc : RVec ℝ mc) : Prop :=
  ∀ y : RVec ℝ mc, (∀ j, ∑ i, M.Jc i j * y i = 0) → (∀ i, cc i * y i = 0) → ∀ i, y i = 0

theorem slack_indep (M : Mats ℝ n mc m) (cc : RVec ℝ mc) (cd : RVec ℝ m) (h : EqIndep M cc) :
    RowsIndep (slackJ M) (Sum.elim cc cd) := by
  intro y h1 h2
  have hyd : ∀ i, y (Sum.inr i) = 0 := by
    intro i
    have := congrFun h1 (Sum.inr i)
    simp only [mulVec, dotProduct, transpose_apply, Fintype.sum_sum_type, slackJ, fromBlocks_apply₁₂,
      fromBlocks_apply₂₂, Matrix.zero_apply, zero_mul, Finset.sum_const_zero, zero_add, Pi.zero_apply,
      Matrix.neg_apply, Matrix.one_apply] at this
    simpa using this
  have hyc : ∀ i, y (Sum.inl i) = 0 := by
    refine h (fun i => y (Sum.inl i)) (fun j => ?_) fun i => h2 (Sum.inl i)
    have := congrFun h1 (Sum.inl j)
    simp only [mulVec, dotProduct, transpose_apply, Fintype.sum_sum_type, slackJ, fromBlocks_apply₁₁,
      fromBlocks_apply₂₁, hyd, mul_zero, Finset.sum_const_zero, add_zero, Pi.zero_apply] at this
    exact this
  funext k
  rcases k with k | k
  · exact hyc k
  · exact hyd k

/-- **C54, enough regularization is enough.** With independent equality gradients (or positive dual
regularization), every sufficiently large primal perturbation gives the required inertia. -/
theorem C54_exists (M : Mats ℝ n mc m) (hH : SymH M) (gx : RVec ℝ n) (g : RVec ℝ m)
    (cc : RVec ℝ mc) (cd : RVec ℝ m) (hcc : ∀ i, 0 ≤ cc i) (hcd : ∀ i, 0 ≤ cd i) (hJ : EqIndep M cc) :
    ∃ δ0 : ℝ, ∀ δ, δ0 ≤ δ → (∀ i, 0 < g i + δ) ∧
      RightInertia M hH (fun i => gx i + δ) cc fun i => 1 / (g i + δ) + cd i := by
  obtain ⟨a, ha, hbd⟩ := form_bound (fromBlocks (M.H + diagonal gx) 0 0 (diagonal g))
  refine ⟨a + 1 + ∑ i, |g i|, fun δ hδ => ?_⟩
  have hsum : 0 ≤ ∑ i, |g i| := Finset.sum_nonneg fun i _ => abs_nonneg _
  have hg : ∀ i, 0 < g i + δ := fun i => by
    have h1 : |g i| ≤ ∑ i, |g i| := Finset.single_le_sum (f := fun i => |g i|) (fun j _ => abs_nonneg _)
      (Finset.mem_univ i)
    have := neg_abs_le (g i)
    linarith
  refine ⟨hg, ?_⟩
  rw [right4 M hH _ (fun i => g i + δ) hg]
  have := saddle_regularized _ (slackJ M) (Sum.elim cc cd) (by rintro (k | k); exacts [hcc k, hcd k])
    (slack_indep M cc cd hJ) a hbd _ (hess4_symm hH (fun i => gx i + δ) fun i => g i + δ) δ (by linarith)
    (fun z => by
      rw [hess4_form, hess4_form]
      refine le_of_eq ?_
      have e : z ⬝ᵥ z = (∑ i, z (Sum.inl i) ^ 2) + ∑ i, z (Sum.inr i) ^ 2 := by
        simp only [dotProduct, Fintype.sum_sum_type, sq]
      rw [e]
      simp only [add_mul, Finset.sum_add_distrib, mul_add, Finset.mul_sum]
      ring)
  rw [Fintype.card_sum, Fintype.card_fin, Fintype.card_fin] at this
  exact this

/-- **C54, convex problems.** If the Hessian with the barrier diagonal is positive definite and the
equality gradients are independent, the inertia is right without any perturbation. -/
theorem C54_convex (M : Mats ℝ n mc m) (hH : SymH M) (gx : RVec ℝ n) (cc : RVec ℝ mc) (gd : RVec ℝ m)
    (hpd : ∀ x : RVec ℝ n, x ≠ 0 → 0 < ∑ i, x i * ((∑ j, M.H i j * x j) + gx i * x i))
    (hcc : ∀ i, 0 ≤ cc i) (hgd : ∀ i, 0 < gd i) (hJ : EqIndep M cc) : RightInertia M hH gx cc gd := by
  have hrows : RowsIndep (stackedJ M) (Sum.elim cc gd) := by
    intro y h1 h2
    have hyd : ∀ i, y (Sum.inr i) = 0 := fun i => by
      rcases mul_eq_zero.mp (h2 (Sum.inr i)) with h | h
      · exact absurd h (hgd i).ne'
      · exact h
    have hyc : ∀ i, y (Sum.inl i) = 0 := by
      refine hJ (fun i => y (Sum.inl i)) (fun j => ?_) fun i => h2 (Sum.inl i)
      have := congrFun h1 j
      simpa only [mulVec, dotProduct, transpose_apply, Fintype.sum_sum_type, stackedJ_inl, stackedJ_inr, hyd,
        mul_zero, Finset.sum_const_zero, add_zero, Pi.zero_apply] using this
    funext k
    rcases k with k | k
    · exact hyc k
    · exact hyd k
  obtain ⟨Q, hQd, hQ⟩ := saddle_negative (M.H + diagonal gx) (stackedJ M) (Sum.elim cc gd)
    (by rintro (k | k); exacts [hcc k, (hgd k).le]) hrows
  let L : (Fin n → ℝ) →ₗ[ℝ] (Fin n ⊕ (Fin mc ⊕ Fin m) → ℝ) :=
    { toFun := fun x => Sum.elim x 0
      map_add' := by intro p q; funext k; rcases k with k | k <;> simp
      map_smul' := by intro p q; funext k; rcases k with k | k <;> simp }
  have hL : Function.Injective L := by
    intro p q h
    funext k
    simpa [L] using congrFun h (Sum.inl k)
  have := inertia_of_subspaces (kkt3 M gx cc gd) (kkt3_symm hH gx cc gd) (LinearMap.range L) Q (by
    rintro _ ⟨x, rfl⟩ hne
    have hx : x ≠ 0 := by rintro rfl; exact hne (map_zero L)
    have e0 : L x = Sum.elim x 0 := rfl
    unfold kkt3
    rw [e0, saddle_form]
    have h2 := hpd x hx
    have e1 : x ⬝ᵥ (M.H + diagonal gx) *ᵥ x = ∑ i, x i * ((∑ j, M.H i j * x j) + gx i * x i) := by
      simp only [dotProduct, add_mulVec, Pi.add_apply, mulVec_diagonal]
      rfl
    rw [e1]
    simpa using h2) hQ (by
    rw [hQd, LinearMap.finrank_range_of_inj hL]; simp)
  rw [hQd, Fintype.card_sum, Fintype.card_fin, Fintype.card_fin] at this
  exact this

/-- Without independence no primal perturbation helps: the matrix stays singular. -/
theorem C54_dependent (M : Mats ℝ n mc m) (gx : RVec ℝ n) (cc : RVec ℝ mc) (gd : RVec ℝ m)
    (hJ : ¬ EqIndep M cc) : (kkt3 M gx cc gd).det = 0 := by
  unfold EqIndep at hJ
  push Not at hJ
  obtain ⟨y, h1, h2, i, hi⟩ := hJ
  refine exists_mulVec_eq_zero_iff.mp ⟨Sum.elim 0 (Sum.elim y 0), fun h => hi ?_, ?_⟩
  · exact congrFun h (Sum.inr (Sum.inl i))
  · rw [kkt3_mulVec]
    funext k
    rcases k with k | k | k
    · simpa using h1 k
    · simpa using h2 k
    · simp

/-! ## Descent -/

/-- **C53, descent.** At a point satisfying the constraints, without dual perturbation, the Newton
direction of a system whose matrix has the required inertia is a strict descent direction of the
barrier objective. -/
theorem C53_descent (dblMax : ℝ) (b : Bounds ℝ n m) (cn : Counts)
    (H : Matrix (Fin n) (Fin n) ℝ) (dl : Deltas ℝ n mc m) (it d : It ℝ n mc m) (e : Resid.Eval n mc m)
    (old : Resid.RState n mc m) (f : ℝ) (hp : Patterns b) (hc : CountsOk cn b)
    (ho : Resid.BlocksOk cn old.v) (hs : SlacksOk b it) (hz : DualsOk b it) (hm : SlacksMatch b it)
    (hi : IneqOk b dl)
    (hfeas : (∀ i, e.c i = e.crhs i) ∧ ∀ i, e.d i = it.d i)
    (hdl : (∀ i, dl.cc i = 0) ∧ ∀ i, dl.cd i = 0)
    (hN : FullNewton b ⟨H, e.Jc, e.Jd⟩ dl it (Resid.update dblMax b cn it e old).v d)
    (hH : SymH (⟨H, e.Jc, e.Jd⟩ : Mats ℝ n mc m))
    (hI : RightInertia ⟨H, e.Jc, e.Jd⟩ hH (fun i => sigX b it i + dl.wx i) dl.cc
      (fun i => 1 / (sigD b it i + dl.wd i) + dl.cd i))
    (hne : d.x ≠ 0 ∨ d.d ≠ 0) :
    Barrier.directionalDerivative (Barrier.updateWithNlpInfo b it e.mu e.kappad f e.grad) d < 0 := by
  obtain ⟨-, -, e3, e4, -⟩ := Resid.C21_vectors dblMax b cn it e old hp hc ho
  have hJc : ∀ i, ∑ j, e.Jc i j * d.x j = 0 := fun i => by
    have := hN.yc i
    rw [e3, hfeas.1, hdl.1] at this
    linarith
  have hJd : ∀ i, ∑ j, e.Jd i j * d.x j = d.d i := fun i => by
    have := hN.yd i
    rw [e4, hfeas.2, hdl.2] at this
    linarith
  have hx : d.x ≠ 0 := by
    rcases hne with h | h
    · exact h
    · intro h0
      refine h (funext fun i => ?_)
      rw [← hJd i, h0]
      simp
  have hcc : dl.cc = fun _ => 0 := funext hdl.1
  have hcd : dl.cd = fun _ => 0 := funext hdl.2
  unfold RightInertia at hI
  simp only [hcc, hcd, add_zero] at hI
  have hcurv := C53_curvature _ hH (fun i => sigX b it i + dl.wx i) (fun i => sigD b it i + dl.wd i)
    (sigD_pos b dl it hs hz hi) hI.1 hI.2 d.x hx hJc
  simp only [hJd] at hcurv
  rw [Resid.C43_directional_derivative dblMax b cn H dl it d e old f hp hc ho hs hz hm hN]
  have z1 : ∑ i, (it.yc i + d.yc i) * (e.crhs i - e.c i + dl.cc i * d.yc i) = 0 :=
    Finset.sum_eq_zero fun i _ => by rw [hfeas.1, hdl.1]; ring
  have z2 : ∑ i, (it.yd i + d.yd i) * (it.d i - e.d i + dl.cd i * d.yd i) = 0 :=
    Finset.sum_eq_zero fun i _ => by rw [hfeas.2, hdl.2]; ring
  rw [z1, z2, C43_curvature]
  have e1 : ∑ i, d.x i * ((∑ j, H i j * d.x j) + (sigX b it i + dl.wx i) * d.x i) =
      (∑ i, ∑ j, d.x i * H i j * d.x j) + ∑ i, (sigX b it i + dl.wx i) * d.x i ^ 2 := by
    rw [← Finset.sum_add_distrib]
    refine Finset.sum_congr rfl fun i _ => ?_
    rw [mul_add, Finset.mul_sum]
    congr 1
    · exact Finset.sum_congr rfl fun j _ => by ring
    · ring
  simp only [e1] at hcurv
  simp only
  linarith

/-! ## The factorization loop of mixed dense-sparse problems -/

/-- **C53, acceptance for mixed dense-sparse problems.** When the factorization loop reports success,
the matrix that was factorized last, with the perturbations of that pass, has the required inertia. -/
theorem C53_mds_accepted_partial {mc m : ℕ} (b : Bounds ℝ (ns + nd) m) (it : It ℝ (ns + nd) mc m)
    (B : MdsMats ℝ ns nd mc m) (hH : ∀ i j, B.Hd i j = B.Hd j i) (fact : NMat ℝ → Factor ℝ)
    (hf : FactOk (nd + mc + m) fact) (c : Perturb.Calc Perturb.PState) (s s' : Perturb.PState) (k : ℕ)
    (hrun : Perturb.factorize c (Perturb.requireIC c ((mc + m : ℕ) : Int))
      (fun _ t => mdsPass B (barrierDx b it) (ddInvFresh b it) fact (unif t.vec)) s = some (true, k, s'))
    (hthr : ∀ i, mdsHxs B (barrierDx b it) (fun _ => s'.vec.wx) i ≠ -pivTol) :
    RightInertia B.toMats (toMats_symm B hH) (fun i => sigX b it i + s'.vec.wx) (fun _ => s'.vec.cc)
      fun i => 1 / (sigD b it i + s'.vec.wd) + s'.vec.cd := by
  obtain ⟨-, h, -⟩ := Perturb.C11_factorize c _ _ s s' true k hrun
  obtain ⟨s0, -, -, -, h1, -⟩ := h rfl
  have hmax : max ((mc + m : ℕ) : Int) 0 = ((mc + m : ℕ) : Int) := max_eq_left (by omega)
  rw [hmax] at h1
  obtain ⟨h2, h3⟩ := C53_mds_count_partial B (barrierDx b it) (ddInvFresh b it) fact (unif s'.vec) hH hf hthr
    (by rw [h1]; omega)
  rw [h1] at h3
  have e1 : (fun i => barrierDx b it i + (unif (n := ns + nd) (mc := mc) (m := m) s'.vec).wx i) =
      fun i => sigX b it i + s'.vec.wx := by
    funext i
    rw [barrierDx_apply]
    rfl
  have e2 : (fun i => ddInvFresh b it (unif s'.vec) i + (unif (n := ns + nd) (mc := mc) (m := m) s'.vec).cd i) =
      fun i => 1 / (sigD b it i + s'.vec.wd) + s'.vec.cd := by
    funext i
    rw [ddInvFresh_eq]
    rfl
  constructor
  · rw [← e1, ← e2]; exact h2
  · simp only [← e1, ← e2]
    exact_mod_cast h3.symm

/-- **C54 for mixed dense-sparse problems.** Once the primal perturbation is large enough, a pass of
the loop either reports that the dense solver found a pivot too small, or is accepted. -/
theorem C54_mds (b : Bounds ℝ (ns + nd) m) (it : It ℝ (ns + nd) mc m)
    (B : MdsMats ℝ ns nd mc m) (hH : ∀ i j, B.Hd i j = B.Hd j i) (fact : NMat ℝ → Factor ℝ)
    (hf : FactOk (nd + mc + m) fact) (dc : ℝ) (hdc : 0 ≤ dc) (hJ : EqIndep B.toMats fun _ => dc) :
    ∃ δ0 : ℝ, ∀ δ, δ0 ≤ δ →
      mdsPass B (barrierDx b it) (ddInvFresh b it) fact (unif ⟨δ, δ, dc, dc⟩) < 0 ∨
      mdsPass B (barrierDx b it) (ddInvFresh b it) fact (unif ⟨δ, δ, dc, dc⟩) = ((mc + m : ℕ) : Int) := by
  obtain ⟨δ1, h1⟩ := C54_exists B.toMats (toMats_symm B hH) (sigX b it) (sigD b it) (fun _ => dc) (fun _ => dc)
    (fun _ => hdc) (fun _ => hdc) hJ
  refine ⟨max δ1 (∑ i, |B.hs i| + ∑ i, |barrierDx b it i|), fun δ hδ => ?_⟩
  have hδ1 := le_trans (le_max_left _ _) hδ
  have hδ2 := le_trans (le_max_right _ _) hδ
  by_cases h0 : mdsPass B (barrierDx b it) (ddInvFresh b it) fact (unif ⟨δ, δ, dc, dc⟩) < 0
  · exact Or.inl h0
  refine Or.inr ?_
  obtain ⟨-, h2, h3⟩ := h1 δ hδ1
  have hthr : ∀ i, mdsHxs B (barrierDx b it) (fun _ => δ) i ≠ -pivTol := by
    intro i h
    have h4 : |B.hs i| ≤ ∑ i, |B.hs i| := Finset.single_le_sum (f := fun i => |B.hs i|)
      (fun j _ => abs_nonneg _) (Finset.mem_univ i)
    have h5 : |barrierDx b it (Fin.castAdd nd i)| ≤ ∑ i, |barrierDx b it i| :=
      Finset.single_le_sum (f := fun i => |barrierDx b it i|) (fun j _ => abs_nonneg _) (Finset.mem_univ _)
    have h6 := neg_abs_le (B.hs i)
    have h7 := neg_abs_le (barrierDx b it (Fin.castAdd nd i))
    have := pivTol_pos (K := ℝ)
    unfold mdsHxs at h
    linarith
  obtain ⟨-, h4⟩ := C53_mds_count_partial B (barrierDx b it) (ddInvFresh b it) fact (unif ⟨δ, δ, dc, dc⟩) hH hf hthr
    (not_lt.mp h0)
  rw [h4]
  have e1 : (fun i => barrierDx b it i + (unif (n := ns + nd) (mc := mc) (m := m) ⟨δ, δ, dc, dc⟩).wx i) =
      fun i => sigX b it i + δ := by
    funext i
    rw [barrierDx_apply]
    rfl
  have e2 : (fun i => ddInvFresh b it (unif ⟨δ, δ, dc, dc⟩) i +
      (unif (n := ns + nd) (mc := mc) (m := m) ⟨δ, δ, dc, dc⟩).cd i) = fun i => 1 / (sigD b it i + δ) + dc := by
    funext i
    rw [ddInvFresh_eq]
    rfl
  simp only [e1, e2]
  exact_mod_cast h3

/-! ## Concrete cases -/

/-- A factorization for matrices of order one. -/
def fact1 (W : NMat ℝ) : Factor ℝ := ⟨0, fun _ => 1, W⟩

theorem fact1_ok : FactOk 1 fact1 := by
  intro W _
  have hb : BlocksOk 1 (fact1 W) := by
    refine ⟨?_, ?_, ?_, ?_⟩
    · intro k hk; interval_cases k; simp [fact1, secondRow]
    · simp [fact1, secondRow]
    · intro k hk; omega
    · intro k hk; omega
  refine ⟨hb, 1, by simp, ?_⟩
  ext i j
  rw [Subsingleton.elim i 0, Subsingleton.elim j 0]
  simp [symOf, Lin.blockDiag, fact1]

theorem fact1_neg (W : NMat ℝ) (h : W 0 0 < -pivTol) : lapackMatrixChanged 1 (fact1 W) = some 1 := by
  have hr : List.range 1 = [0] := rfl
  simp [lapackMatrixChanged, fact1, hr, inertiaStep, h]

/-- One sparse variable with curvature 2 and the constraint `x = 0`. -/
def mB : MdsMats ℝ 1 0 1 0 := ⟨fun _ => 2, fun i => i.elim0, fun _ _ => 1, fun _ i => i.elim0, fun i => i.elim0,
  fun i => i.elim0⟩

/-- No bounds. -/
def mBd : Bounds ℝ (1 + 0) 0 := ⟨fun _ => 0, fun _ => 0, fun _ => 0, fun _ => 0, fun i => i.elim0, fun i => i.elim0,
  fun i => i.elim0, fun i => i.elim0⟩

/-- An iterate. -/
def mIt : It ℝ (1 + 0) 1 0 := ⟨fun _ => 0, fun i => i.elim0, fun _ => 0, fun _ => 0, fun i => i.elim0,
  fun i => i.elim0, fun _ => 0, fun i => i.elim0, fun _ => 0, fun _ => 0, fun i => i.elim0, fun i => i.elim0⟩

theorem mdx : barrierDx mBd mIt = fun _ => 0 := by
  funext i
  rw [barrierDx_apply]
  simp [mBd]

theorem mPass (v : Perturb.Deltas) (h1 : 0 ≤ v.wx) (h2 : v.wx ≤ 1) (h3 : 0 ≤ v.cc) :
    mdsPass mB (barrierDx mBd mIt) (ddInvFresh mBd mIt) fact1 (unif v) = 1 := by
  have hW : mdsMatrix mB (unif v) (barrierDx mBd mIt) (ddInvFresh mBd mIt (unif v)) 0 0 =
      -(1 / (v.wx + 2)) - v.cc := by
    rw [mdx]
    simp [mdsMatrix, addUpperTri, transAdd, addSubDiag, addSubDiagFrom, addMDinvMt, addMDinvNt, at2, at1, wprod,
      mB, unif, mdsHxs]
    ring
  have hx : mdsHxs mB (barrierDx mBd mIt) (unif (mc := 1) (m := 0) v).wx = fun _ => v.wx + 2 := by
    rw [mdx]
    funext i
    simp [mdsHxs, mB, unif]
  have h4 : 1 / (3 : ℝ) ≤ 1 / (v.wx + 2) := one_div_le_one_div_of_le (by linarith) (by linarith)
  have hpt : (pivTol : ℝ) ≤ 1 / 10 := by unfold pivTol; norm_num
  unfold mdsPass
  rw [hx]
  have h5 := fact1_neg _ (show mdsMatrix mB (unif v) (barrierDx mBd mIt) (ddInvFresh mBd mIt (unif v)) 0 0 < -pivTol by
    rw [hW]; linarith)
  have h6 : lapackMatrixChanged (0 + 1 + 0) (fact1 (mdsMatrix mB (unif v) (barrierDx mBd mIt)
    (ddInvFresh mBd mIt (unif v)))) = some 1 := h5
  rw [h6]
  have e1 : numAbsLess (fun _ : Fin 1 => v.wx + 2) (pivTol : ℝ) = 0 := by
    unfold numAbsLess
    rw [Finset.card_eq_zero, Finset.filter_eq_empty_iff]
    intro i _ h
    have := le_abs_self (v.wx + 2)
    linarith
  have e2 : numLess (fun _ : Fin 1 => v.wx + 2) (-pivTol : ℝ) = 0 := by
    unfold numLess
    rw [Finset.card_eq_zero, Finset.filter_eq_empty_iff]
    intro i _ h
    have := pivTol_pos (K := ℝ)
    linarith
  unfold mdsCount
  simp [e1, e2]

theorem mB_symm : ∀ i j, mB.Hd i j = mB.Hd j i := fun i => i.elim0

theorem mThr (w : ℝ) (h1 : 0 ≤ w) (i) : mdsHxs mB (barrierDx mBd mIt) (fun _ => w) i ≠ -pivTol := by
  have := pivTol_pos (K := ℝ)
  rw [mdx]
  simp [mdsHxs, mB]
  intro h
  linarith

/-- `C53_mds_count_partial`, `C53_mds_accepted_partial` and `C53_curvature` apply: the first pass is
accepted. -/
example : ∃ s', Perturb.factorize (Perturb.calcP Perturb.dflt) (Perturb.requireIC (Perturb.calcP Perturb.dflt)
    ((1 + 0 : ℕ) : Int)) (fun _ t => mdsPass mB (barrierDx mBd mIt) (ddInvFresh mBd mIt) fact1 (unif t.vec))
      (Perturb.PState.fresh 1) = some (true, 1, s') ∧
    RightInertia mB.toMats (toMats_symm mB mB_symm) (fun i => sigX mBd mIt i + s'.vec.wx) (fun _ => s'.vec.cc)
      fun i => 1 / (sigD mBd mIt i + s'.vec.wd) + s'.vec.cd := by
  have h1 : Perturb.initialP Perturb.dflt (Perturb.PState.fresh 1) =
      some (true, ⟨.zero, .zero, .zero, .unknown, .unknown, 0, .c0w0, 1⟩) := by
    simp [Perturb.initialP, Perturb.initCore, Perturb.initC, Perturb.startTest, Perturb.PState.fresh,
      Perturb.updateDegen, Perturb.saveLast, Perturb.setC, Perturb.setW, Perturb.setVec, Perturb.Deltas.zero]
  have h2 := mPass .zero le_rfl (by norm_num [Perturb.Deltas.zero]) le_rfl
  have hrun : Perturb.factorize (Perturb.calcP Perturb.dflt) (Perturb.requireIC (Perturb.calcP Perturb.dflt)
    ((1 + 0 : ℕ) : Int)) (fun _ t => mdsPass mB (barrierDx mBd mIt) (ddInvFresh mBd mIt) fact1 (unif t.vec))
      (Perturb.PState.fresh 1) = some (true, 1, ⟨.zero, .zero, .zero, .unknown, .unknown, 0, .c0w0, 1⟩) := by
    simp [Perturb.factorize, Perturb.factLoop, Perturb.calcP, h1, Perturb.requireIC, h2]
  exact ⟨_, hrun, C53_mds_accepted_partial mBd mIt mB mB_symm fact1 fact1_ok _ _ _ _ hrun (mThr _ le_rfl)⟩

/-- `C54_mds` and `C54_exists` apply: the constraint gradient does not vanish. -/
example : EqIndep mB.toMats fun _ => 0 := by
  intro y h1 _ i
  have := h1 0
  simp [MdsMats.toMats, mB, Fin.addCases] at this
  rw [Subsingleton.elim i 0]
  exact this

/-- Two sparse variables, the first with curvature exactly at the threshold and not constrained. -/
noncomputable def tB : MdsMats ℝ 2 0 1 0 := ⟨fun i => if i = 0 then -pivTol else 1, fun i => i.elim0,
  fun _ i => if i = 0 then 0 else 1, fun _ i => i.elim0, fun i => i.elim0, fun i => i.elim0⟩

/-- **C53, the boundary.** An entry of the sparse diagonal equal to minus the threshold is counted as
neither small nor negative: a matrix is accepted although the Hessian has negative curvature along a
direction in the null space of the constraint. -/
theorem C53_mds_threshold_false : ∃ (B : MdsMats ℝ 2 0 1 0) (fact : NMat ℝ → Factor ℝ), FactOk 1 fact ∧
    mdsPass B (fun _ => 0) (fun _ i => i.elim0) fact ⟨fun _ => 0, fun i => i.elim0, fun _ => 0, fun i => i.elim0⟩
      = ((1 + 0 : ℕ) : Int) ∧
    ∃ x : RVec ℝ (2 + 0), (∀ i, ∑ j, B.toMats.Jc i j * x j = 0) ∧
      ∑ i, x i * ∑ j, B.toMats.H i j * x j < 0 := by
  have hpt := pivTol_pos (K := ℝ)
  have hpt1 : (pivTol : ℝ) ≤ 1 / 10 := by unfold pivTol; norm_num
  set dl : Deltas ℝ (2 + 0) 1 0 := ⟨fun _ => 0, fun i => i.elim0, fun _ => 0, fun i => i.elim0⟩ with hdl
  refine ⟨tB, fact1, fact1_ok, ?_, fun i => if i = 0 then 1 else 0, ?_, ?_⟩
  · have hW : mdsMatrix tB dl (fun _ => 0) (fun i => i.elim0) 0 0 = -1 := by
      simp [mdsMatrix, addUpperTri, transAdd, addSubDiag, addSubDiagFrom, addMDinvMt, addMDinvNt, at2, at1, wprod,
        tB, mdsHxs, Fin.sum_univ_two, hdl]
    have hx : mdsHxs tB (fun _ => 0) dl.wx = fun i => if i = 0 then -pivTol else 1 := by
      funext i
      simp [mdsHxs, tB, hdl]
    unfold mdsPass
    rw [hx]
    have h6 : lapackMatrixChanged (0 + 1 + 0) (fact1 (mdsMatrix tB dl (fun _ => 0) (fun i => i.elim0))) = some 1 :=
      fact1_neg _ (by rw [hW]; linarith)
    rw [h6]
    have e1 : numAbsLess (fun i : Fin 2 => if i = 0 then -(pivTol : ℝ) else 1) (pivTol : ℝ) = 0 := by
      unfold numAbsLess
      rw [Finset.card_eq_zero, Finset.filter_eq_empty_iff]
      intro i _ h
      fin_cases i
      · simp [abs_of_pos hpt] at h
      · simp at h; linarith
    have e2 : numLess (fun i : Fin 2 => if i = 0 then -(pivTol : ℝ) else 1) (-pivTol : ℝ) = 0 := by
      unfold numLess
      rw [Finset.card_eq_zero, Finset.filter_eq_empty_iff]
      intro i _ h
      fin_cases i
      · simp at h
      · simp at h; linarith
    unfold mdsCount
    simp [e1, e2]
  · intro i
    simp [MdsMats.toMats, tB, Fin.addCases]
  · simp [MdsMats.toMats, tB, Fin.sum_univ_two, Fin.addCases]
    exact hpt

/-- `C53_descent` applies to the instance of C43. -/
example : Barrier.directionalDerivative (Barrier.updateWithNlpInfo Resid.dB Resid.dIt 1 0 3 Resid.dE.grad) Resid.dDir
    < 0 := by
  have hp : Patterns Resid.dB := by
    constructor <;> intro i <;> first | exact i.elim0 | simp [Resid.dB]
  have hc : CountsOk ⟨1, 0, 0, 0⟩ Resid.dB := by constructor <;> simp [CountOk, Resid.dB]
  have ho := Resid.C21_blocks_fresh (n := 1) (mc := 0) ⟨1, 0, 0, 0⟩ (fun i : Fin 0 => i.elim0)
  obtain ⟨e1, -, -, -, e5, e6, -, -, e9, e10, -⟩ := Resid.C21_vectors 1 Resid.dB _ Resid.dIt Resid.dE _ hp hc ho
  refine C53_descent 1 Resid.dB ⟨1, 0, 0, 0⟩ 0 ⟨fun _ => 0, fun i => i.elim0, fun i => i.elim0,
    fun i => i.elim0⟩ Resid.dIt Resid.dDir Resid.dE (Resid.fresh fun i => i.elim0) 3 hp hc ho ?_ ?_ ?_ ?_
    ⟨fun i => i.elim0, fun i => i.elim0⟩ ⟨fun i => i.elim0, fun i => i.elim0⟩ ?_ (fun i j => rfl) ?_
    (Or.inl fun h => by have := congrFun h 0; simp [Resid.dDir] at this)
  · constructor <;> intro i <;> first | exact i.elim0 | simp [Resid.dB, Resid.dIt]
  · constructor <;> intro i <;> first | exact i.elim0 | simp [Resid.dB, Resid.dIt]
  · constructor <;> intro i <;> first | exact i.elim0 | simp [Resid.dB, Resid.dIt]
  · constructor <;> intro i <;> exact i.elim0
  · constructor <;> intro i <;> first
      | exact i.elim0
      | (rw [e1]; simp [Resid.dB, Resid.dIt, Resid.dDir, Resid.dE, Resid.lagX, Resid.damp]; norm_num)
      | (rw [e5]; simp [Resid.dB, Resid.dIt, Resid.dDir])
      | (rw [e9]; simp [Resid.dB, Resid.dIt, Resid.dDir, Resid.dE])
      | simp [Resid.dB, Resid.dDir]
  · refine C54_convex _ _ _ _ _ ?_ (fun i => i.elim0) (fun i => i.elim0) fun y _ _ i => i.elim0
    intro x hx
    have h0 : x 0 ≠ 0 := fun h => hx (funext fun i => by rw [Subsingleton.elim i 0]; exact h)
    simp [sigX, Resid.dB, Resid.dIt]
    positivity

end Hiop.Kkt
