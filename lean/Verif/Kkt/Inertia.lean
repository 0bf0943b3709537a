import Verif.Kkt.DenseXD
import Verif.Kkt.Systems
import Verif.Lin.Saddle
import Verif.Lin.InertiaProps
import Verif.Perturb.Accept

/-! # Inertia of the linear systems and what acceptance means

`hiopKKTLinSysCompressedMDSXYcYd::factorizeWithCurvCheck` adds the negative entries of the diagonal
sparse block to the count of the dense solver; `hiopFactAcceptorIC` compares the total with the number
of constraints. -/

namespace Hiop.Kkt

open Matrix Hiop.Vec Hiop.Iterate Hiop.Lin

set_option linter.unusedSectionVars false

variable {n mc m ns nd : ℕ}

/-! ## Model -/

/-- `numOfElemsLessThan`, src/LinAlg/hiopVectorPar.cpp:1222-1239, on one rank. -/
def numLess {K : Type*} [LinearOrder K] {p : ℕ} (v : RVec K p) (val : K) : ℕ :=
  (Finset.univ.filter fun i => v i < val).card

/-- `numOfElemsAbsLessThan`, src/LinAlg/hiopVectorPar.cpp:1241-1258, on one rank. -/
def numAbsLess {K : Type*} [Field K] [LinearOrder K] {p : ℕ} (v : RVec K p) (val : K) : ℕ :=
  (Finset.univ.filter fun i => |v i| < val).card

/-- `hiopKKTLinSysCompressedMDSXYcYd::factorizeWithCurvCheck`, src/Optimization/hiopKKTLinSysMDS.cpp:78-110,
as a function of the count of the dense solver and of `Hxs_`. -/
def mdsCount {K : Type*} [Field K] [LinearOrder K] (dense : Int) (hxs : RVec K ns) : Int :=
  let n11 : Int :=
    if dense ≥ 0 then
      if 0 < numAbsLess hxs (pivTol (K := K)) then -1 else numLess hxs (-pivTol)
    else 0
  if n11 < 0 then -1 else if n11 > 0 then dense + n11 else dense

/-- What one pass of the factorization loop of a mixed dense-sparse problem returns: the matrix is
built with the current perturbations, the dense solver counts, the sparse block is added. `fact` is
DSYTRF. `getD` stands for the assertion of the dense solver, which never fails (`C52_answers`). Models
src/Optimization/hiopKKTLinSys.cpp:339-350 with hiopKKTLinSysMDS.cpp:78-110. -/
noncomputable def mdsPass (B : MdsMats ℝ ns nd mc m) (dx : RVec ℝ (ns + nd))
    (ddInv : Deltas ℝ (ns + nd) mc m → RVec ℝ m) (fact : NMat ℝ → Factor ℝ)
    (dl : Deltas ℝ (ns + nd) mc m) : Int :=
  mdsCount ((lapackMatrixChanged (nd + mc + m) (fact (mdsMatrix B dl dx (ddInv dl)))).getD (-1))
    (mdsHxs B dx dl.wx)

/-- The vectors of perturbations: the calculators fill them with one value each. Models the
`setToConstant` calls of src/Optimization/hiopPDPerturbation.cpp, `set_delta_curr_vec`. -/
def unif (v : Perturb.Deltas) : Deltas ℝ n mc m :=
  ⟨fun _ => v.wx, fun _ => v.wd, fun _ => v.cc, fun _ => v.cd⟩

/-! ## Specification -/

/-- The symmetric matrix whose upper triangle is stored in `W`. -/
def symOf (N : ℕ) (W : NMat ℝ) : Matrix (Fin N) (Fin N) ℝ :=
  of fun i j => W (min i.val j.val) (max i.val j.val)

theorem symOf_symm (N : ℕ) (W : NMat ℝ) : (symOf N W).IsHermitian := by
  ext i j
  simp [symOf, min_comm, max_comm]

/-- The matrix of the (x, yc, yd) system. -/
def kkt3 (M : Mats ℝ n mc m) (gx : RVec ℝ n) (cc : RVec ℝ mc) (gd : RVec ℝ m) :=
  saddle (M.H + diagonal gx) (stackedJ M) (Sum.elim cc gd)

/-- The Jacobian of the constraints with the inequality slacks as variables. -/
def slackJ (M : Mats ℝ n mc m) : Matrix (Fin mc ⊕ Fin m) (Fin n ⊕ Fin m) ℝ :=
  fromBlocks M.Jc 0 M.Jd (-1)

/-- The matrix of the (x, d, yc, yd) system. -/
def kkt4 (M : Mats ℝ n mc m) (gx : RVec ℝ n) (gd : RVec ℝ m) (cc : RVec ℝ mc) (cd : RVec ℝ m) :=
  saddle (fromBlocks (M.H + diagonal gx) 0 0 (diagonal gd)) (slackJ M) (Sum.elim cc cd)

/-- A symmetric Hessian. -/
def SymH (M : Mats ℝ n mc m) : Prop := ∀ i j, M.H i j = M.H j i

theorem hess_symm {M : Mats ℝ n mc m} (h : SymH M) (gx : RVec ℝ n) : (M.H + diagonal gx).IsHermitian := by
  refine IsHermitian.add ?_ (isHermitian_diagonal gx)
  ext i j
  exact h j i

theorem hess4_symm {M : Mats ℝ n mc m} (h : SymH M) (gx : RVec ℝ n) (gd : RVec ℝ m) :
    (fromBlocks (M.H + diagonal gx) 0 0 (diagonal gd)).IsHermitian := by
  refine IsHermitian.fromBlocks (hess_symm h gx) ?_ (isHermitian_diagonal gd)
  simp

theorem kkt3_symm {M : Mats ℝ n mc m} (h : SymH M) (gx : RVec ℝ n) (cc : RVec ℝ mc) (gd : RVec ℝ m) :
    (kkt3 M gx cc gd).IsHermitian := saddle_symm _ (hess_symm h gx) _ _

theorem kkt4_symm {M : Mats ℝ n mc m} (h : SymH M) (gx : RVec ℝ n) (gd : RVec ℝ m) (cc : RVec ℝ mc)
    (cd : RVec ℝ m) : (kkt4 M gx gd cc cd).IsHermitian := saddle_symm _ (hess4_symm h gx gd) _ _

/-! ## The matrices act as the equations say -/

theorem stackedJ_inl (M : Mats ℝ n mc m) (i : Fin mc) (j : Fin n) : stackedJ M (Sum.inl i) j = M.Jc i j := rfl
theorem stackedJ_inr (M : Mats ℝ n mc m) (i : Fin m) (j : Fin n) : stackedJ M (Sum.inr i) j = M.Jd i j := rfl

theorem kkt3_mulVec (M : Mats ℝ n mc m) (gx : RVec ℝ n) (cc : RVec ℝ mc) (gd : RVec ℝ m)
    (x : RVec ℝ n) (yc : RVec ℝ mc) (yd : RVec ℝ m) :
    kkt3 M gx cc gd *ᵥ Sum.elim x (Sum.elim yc yd) =
      Sum.elim (fun i => (∑ j, M.H i j * x j) + gx i * x i + (∑ j, M.Jc j i * yc j) + ∑ j, M.Jd j i * yd j)
        (Sum.elim (fun i => (∑ j, M.Jc i j * x j) - cc i * yc i)
          fun i => (∑ j, M.Jd i j * x j) - gd i * yd i) := by
  unfold kkt3 saddle
  rw [fromBlocks_mulVec]
  simp only [Sum.elim_comp_inl, Sum.elim_comp_inr]
  funext k
  rcases k with i | i | i
  · simp only [Sum.elim_inl, Pi.add_apply, add_mulVec, mulVec_diagonal]
    simp only [mulVec, dotProduct, transpose_apply, Fintype.sum_sum_type, stackedJ_inl,
      stackedJ_inr, Sum.elim_inl, Sum.elim_inr]
    ring
  · simp only [Sum.elim_inl, Sum.elim_inr, Pi.add_apply, neg_mulVec, Pi.neg_apply, mulVec_diagonal]
    simp only [mulVec, dotProduct, stackedJ_inl]
    ring
  · simp only [Sum.elim_inr, Pi.add_apply, neg_mulVec, Pi.neg_apply, mulVec_diagonal]
    simp only [mulVec, dotProduct, stackedJ_inr]
    ring

theorem kkt4_mulVec (M : Mats ℝ n mc m) (gx : RVec ℝ n) (gd : RVec ℝ m) (cc : RVec ℝ mc) (cd : RVec ℝ m)
    (x : RVec ℝ n) (d : RVec ℝ m) (yc : RVec ℝ mc) (yd : RVec ℝ m) :
    kkt4 M gx gd cc cd *ᵥ Sum.elim (Sum.elim x d) (Sum.elim yc yd) =
      Sum.elim (Sum.elim
        (fun i => (∑ j, M.H i j * x j) + gx i * x i + (∑ j, M.Jc j i * yc j) + ∑ j, M.Jd j i * yd j)
        fun i => gd i * d i - yd i)
        (Sum.elim (fun i => (∑ j, M.Jc i j * x j) - cc i * yc i)
          fun i => (∑ j, M.Jd i j * x j) - d i - cd i * yd i) := by
  unfold kkt4 saddle slackJ
  rw [fromBlocks_mulVec, fromBlocks_transpose, fromBlocks_mulVec, fromBlocks_mulVec, fromBlocks_mulVec]
  simp only [Sum.elim_comp_inl, Sum.elim_comp_inr]
  funext k
  rcases k with (i | i) | i | i
  · simp only [Sum.elim_inl, Pi.add_apply, add_mulVec, mulVec_diagonal, zero_mulVec, add_zero]
    simp only [mulVec, dotProduct, transpose_apply]
    ring
  · simp [mulVec_diagonal, neg_mulVec, sub_eq_add_neg]
  · simp only [Sum.elim_inl, Sum.elim_inr, Pi.add_apply, neg_mulVec, Pi.neg_apply, mulVec_diagonal, zero_mulVec,
      add_zero]
    simp only [mulVec, dotProduct]
    ring
  · simp only [Sum.elim_inr, Pi.add_apply, neg_mulVec, Pi.neg_apply, mulVec_diagonal, one_mulVec]
    simp only [mulVec, dotProduct]
    ring

/-- The rows of the stored symmetric matrix. -/
def symRow (N : ℕ) (W : NMat ℝ) (z : ℕ → ℝ) (r : ℕ) : ℝ :=
  ∑ c ∈ Finset.range N, W (min r c) (max r c) * z c

theorem symOf_mulVec (N : ℕ) (W : NMat ℝ) (z : ℕ → ℝ) (r : Fin N) :
    (symOf N W *ᵥ fun k : Fin N => z k) r = symRow N W z r := by
  unfold symRow
  rw [Finset.sum_range]
  rfl

open Classical in
/-- The solver that knows one solution. -/
noncomputable def oneAnswer (N : ℕ) (W : NMat ℝ) (z : ℕ → ℝ) (rhs : ℕ → ℝ) : Option (ℕ → ℝ) :=
  if ∀ r < N, symRow N W z r = rhs r then some z else none

theorem oneAnswer_solves (N : ℕ) (W : NMat ℝ) (z : ℕ → ℝ) : SymSolves N W (oneAnswer N W z) := by
  intro rhs x h r hr
  unfold oneAnswer at h
  split_ifs at h with hh
  cases h
  exact hh r hr

/-! ## Mixed dense-sparse problems -/

/-- The part of the sparse variables that the other ones determine. -/
noncomputable def mdsElim (B : MdsMats ℝ ns nd mc m) (hxs : RVec ℝ ns) (yc : RVec ℝ mc) (yd : RVec ℝ m) :
    RVec ℝ ns := fun i => -((∑ k, B.Jcs k i * yc k) + ∑ k, B.Jds k i * yd k) / hxs i

theorem mds_rows (B : MdsMats ℝ ns nd mc m) (dl : Deltas ℝ (ns + nd) mc m) (dx : RVec ℝ (ns + nd))
    (ddInv : RVec ℝ m) (hH : ∀ i j, B.Hd i j = B.Hd j i) (hne : ∀ i, mdsHxs B dx dl.wx i ≠ 0)
    (z : ℕ → ℝ) :
    kkt3 B.toMats (fun i => dx i + dl.wx i) dl.cc (fun i => ddInv i + dl.cd i) *ᵥ
      Sum.elim (Fin.append (mdsElim B (mdsHxs B dx dl.wx) (copyOut z nd mc) (copyOut z (nd + mc) m))
        (copyOut z 0 nd)) (Sum.elim (copyOut z nd mc) (copyOut z (nd + mc) m)) =
    Sum.elim (Fin.append (fun _ : Fin ns => 0)
        fun i : Fin nd => symRow (nd + mc + m) (mdsMatrix B dl dx ddInv) z i)
      (Sum.elim (fun i : Fin mc => symRow (nd + mc + m) (mdsMatrix B dl dx ddInv) z (nd + i))
        fun i : Fin m => symRow (nd + mc + m) (mdsMatrix B dl dx ddInv) z (nd + mc + i)) := by
  set W := mdsMatrix B dl dx ddInv with hW
  set N := nd + mc + m with hN
  have hs := C18_mds B dl dx ddInv (oneAnswer N W z) (fun _ => 0) hH
    (fun i => by have := hne i; simpa [mdsHxs] using this) (oneAnswer_solves N W z)
  set rx : RVec ℝ (ns + nd) := Fin.append (fun _ => 0) fun i => symRow N W z i with hrx
  set ryc : RVec ℝ mc := fun i => symRow N W z (nd + i) with hryc
  set ryd : RVec ℝ m := fun i => symRow N W z (nd + mc + i) with hryd
  have hzero : componentDiv (fun i => rx (Fin.castAdd nd i)) (mdsHxs B dx dl.wx) = fun _ => 0 := by
    funext i
    simp [componentDiv, hrx]
  have ht1 : timesVec B.Jcs 1 ryc (-1) (fun _ => 0) = ryc := by
    funext i; simp [timesVec, mulVec, dotProduct]
  have ht2 : timesVec B.Jds 1 ryd (-1) (fun _ => 0) = ryd := by
    funext i; simp [timesVec, mulVec, dotProduct]
  obtain ⟨p1, p2, p3⟩ := pack3_rhs (fun i => rx (Fin.natAdd ns i)) ryc ryd (fun _ => (0 : ℝ))
  have hlin : oneAnswer N W z (copyTo ryd (copyTo ryc (copyTo (fun i => rx (Fin.natAdd ns i))
      (fun _ => 0) 0) nd) (nd + mc)) = some z := by
    unfold oneAnswer
    rw [if_pos]
    intro r hr
    rcases Nat.lt_or_ge r nd with h1 | h1
    · have := p1 ⟨r, h1⟩
      rw [show ((⟨r, h1⟩ : Fin nd) : ℕ) = r from rfl] at this
      rw [this, hrx, Fin.append_right]
    · rcases Nat.lt_or_ge r (nd + mc) with h2 | h2
      · have := p2 ⟨r - nd, by omega⟩
        rw [show nd + ((⟨r - nd, by omega⟩ : Fin mc) : ℕ) = r by simp; omega] at this
        rw [this, hryc]
        simp only
        congr 1; omega
      · have := p3 ⟨r - (nd + mc), by omega⟩
        rw [show nd + mc + ((⟨r - (nd + mc), by omega⟩ : Fin m) : ℕ) = r by simp; omega] at this
        rw [this, hryd]
        simp only
        congr 1; omega
  have hans : mdsSolve B (mdsHxs B dx dl.wx) (oneAnswer N W z) (fun _ => 0) rx ryc ryd =
      some (Fin.append (mdsElim B (mdsHxs B dx dl.wx) (copyOut z nd mc) (copyOut z (nd + mc) m))
        (copyOut z 0 nd), copyOut z nd mc, copyOut z (nd + mc) m) := by
    unfold mdsSolve
    simp only [hzero, ht1, ht2, hlin]
    congr 3
    funext i
    simp only [componentDiv, transTimesVec, mulVec, dotProduct, transpose_apply, mdsElim, hrx,
      Fin.append_left]
    congr 1
    ring
  obtain ⟨r1, r2, r3⟩ := hs rx ryc ryd _ _ _ hans
  rw [kkt3_mulVec]
  funext k
  rcases k with i | i | i
  · exact r1 i
  · exact r2 i
  · exact r3 i

/-- The position in the whole system of an unknown of the dense system. -/
def mdsPos : Fin (nd + mc + m) → Fin (ns + nd) ⊕ (Fin mc ⊕ Fin m) :=
  Fin.addCases (Fin.addCases (fun i => Sum.inl (Fin.natAdd ns i)) fun i => Sum.inr (Sum.inl i))
    fun i => Sum.inr (Sum.inr i)

theorem dot_three (f g : ℕ → ℝ) : (fun k : Fin (nd + mc + m) => f k) ⬝ᵥ (fun k => g k) =
    (∑ i : Fin nd, f i * g i) + (∑ i : Fin mc, f (nd + i) * g (nd + i)) +
      ∑ i : Fin m, f (nd + mc + i) * g (nd + mc + i) := by
  rw [← sum_three (fun k => f k * g k), Finset.sum_range]
  rfl

/-- **Haynsworth's formula for the mixed dense-sparse elimination.** -/
theorem mds_inertia (B : MdsMats ℝ ns nd mc m) (dl : Deltas ℝ (ns + nd) mc m) (dx : RVec ℝ (ns + nd))
    (ddInv : RVec ℝ m) (hH : ∀ i j, B.Hd i j = B.Hd j i) (hne : ∀ i, mdsHxs B dx dl.wx i ≠ 0)
    (hM : SymH B.toMats)
    (hd : (symOf (nd + mc + m) (mdsMatrix B dl dx ddInv)).det ≠ 0) :
    (kkt3 B.toMats (fun i => dx i + dl.wx i) dl.cc (fun i => ddInv i + dl.cd i)).det ≠ 0 ∧
    negEigs _ (kkt3_symm hM (fun i => dx i + dl.wx i) dl.cc (fun i => ddInv i + dl.cd i)) =
      (Finset.univ.filter fun i => mdsHxs B dx dl.wx i < 0).card +
        negEigs _ (symOf_symm (nd + mc + m) (mdsMatrix B dl dx ddInv)) := by
  set hxs := mdsHxs B dx dl.wx with hhxs
  set W := mdsMatrix B dl dx ddInv with hW
  set a : Fin ns → ((Fin (ns + nd) ⊕ (Fin mc ⊕ Fin m) → ℝ) →ₗ[ℝ] ℝ) := fun i =>
    LinearMap.proj (Sum.inl (Fin.castAdd nd i)) +
      (1 / hxs i) • ((∑ k, B.Jcs k i • LinearMap.proj (Sum.inr (Sum.inl k))) +
        ∑ k, B.Jds k i • LinearMap.proj (Sum.inr (Sum.inr k))) with ha
  have haa : ∀ i v, a i v = v (Sum.inl (Fin.castAdd nd i)) -
      mdsElim B hxs (fun k => v (Sum.inr (Sum.inl k))) (fun k => v (Sum.inr (Sum.inr k))) i := by
    intro i v
    simp only [ha, mdsElim, LinearMap.add_apply, LinearMap.smul_apply, LinearMap.sum_apply,
      LinearMap.proj_apply, smul_eq_mul]
    ring
  set p : (Fin (ns + nd) ⊕ (Fin mc ⊕ Fin m) → ℝ) →ₗ[ℝ] (Fin (nd + mc + m) → ℝ) :=
    LinearMap.funLeft ℝ ℝ mdsPos with hp
  refine inertia_additive (kkt3 B.toMats (fun i => dx i + dl.wx i) dl.cc (fun i => ddInv i + dl.cd i))
    (kkt3_symm hM _ _ _) (symOf (nd + mc + m) W) (symOf_symm _ _) hd a p hxs hne ?_ ?_ ?_
  · simp only [Fintype.card_fin, Fintype.card_sum]; omega
  · intro v h1 h2
    have e1 : ∀ i, v (Sum.inl (Fin.natAdd ns i)) = 0 := fun i => by
      have := congrFun h2 (Fin.castAdd m (Fin.castAdd mc i))
      simpa [hp, mdsPos, LinearMap.funLeft_apply] using this
    have e2 : ∀ i, v (Sum.inr (Sum.inl i)) = 0 := fun i => by
      have := congrFun h2 (Fin.castAdd m (Fin.natAdd nd i))
      simpa [hp, mdsPos, LinearMap.funLeft_apply] using this
    have e3 : ∀ i, v (Sum.inr (Sum.inr i)) = 0 := fun i => by
      have := congrFun h2 (Fin.natAdd (nd + mc) i)
      simpa [hp, mdsPos, LinearMap.funLeft_apply] using this
    have e4 : ∀ i, v (Sum.inl (Fin.castAdd nd i)) = 0 := fun i => by
      have := h1 i
      rw [haa] at this
      simpa [mdsElim, e2, e3] using this
    funext k
    rcases k with k | k | k
    · refine Fin.addCases (fun i => ?_) (fun i => ?_) k
      · exact e4 i
      · exact e1 i
    · exact e2 k
    · exact e3 k
  · intro v
    set M := kkt3 B.toMats (fun i => dx i + dl.wx i) dl.cc (fun i => ddInv i + dl.cd i) with hMdef
    set z : ℕ → ℝ := fun k => if h : k < nd + mc + m then p v ⟨k, h⟩ else 0 with hz
    have hpz : p v = fun k : Fin (nd + mc + m) => z k := by
      funext k; simp [hz]
    have z1 : ∀ i : Fin nd, z i = v (Sum.inl (Fin.natAdd ns i)) := fun i => by
      have : (i : ℕ) = (Fin.castAdd m (Fin.castAdd mc i) : Fin (nd + mc + m)) := rfl
      rw [this, ← congrFun hpz]
      simp [hp, mdsPos, LinearMap.funLeft_apply]
    have z2 : ∀ i : Fin mc, z (nd + i) = v (Sum.inr (Sum.inl i)) := fun i => by
      have : nd + (i : ℕ) = (Fin.castAdd m (Fin.natAdd nd i) : Fin (nd + mc + m)) := rfl
      rw [this, ← congrFun hpz]
      simp [hp, mdsPos, LinearMap.funLeft_apply]
    have z3 : ∀ i : Fin m, z (nd + mc + i) = v (Sum.inr (Sum.inr i)) := fun i => by
      have : nd + mc + (i : ℕ) = (Fin.natAdd (nd + mc) i : Fin (nd + mc + m)) := rfl
      rw [this, ← congrFun hpz]
      simp [hp, mdsPos, LinearMap.funLeft_apply]
    have c1 : copyOut z 0 nd = fun i => v (Sum.inl (Fin.natAdd ns i)) := by
      funext i; simp [copyOut, z1]
    have c2 : copyOut z nd mc = fun i => v (Sum.inr (Sum.inl i)) := by
      funext i; simp [copyOut, z2]
    have c3 : copyOut z (nd + mc) m = fun i => v (Sum.inr (Sum.inr i)) := by
      funext i; simp [copyOut, z3]
    have hrows := mds_rows B dl dx ddInv hH hne z
    rw [c1, c2, c3] at hrows
    set w : Fin (ns + nd) ⊕ (Fin mc ⊕ Fin m) → ℝ := Sum.elim
      (Fin.append (mdsElim B hxs (fun i => v (Sum.inr (Sum.inl i))) fun i => v (Sum.inr (Sum.inr i)))
        fun i => v (Sum.inl (Fin.natAdd ns i)))
      (Sum.elim (fun i => v (Sum.inr (Sum.inl i))) fun i => v (Sum.inr (Sum.inr i))) with hw
    set e : Fin (ns + nd) ⊕ (Fin mc ⊕ Fin m) → ℝ :=
      Sum.elim (Fin.append (fun i => a i v) fun _ => 0) (Sum.elim (fun _ => 0) fun _ => 0) with he
    have hv : v = w + e := by
      funext k
      rcases k with k | k | k
      · refine Fin.addCases (fun i => ?_) (fun i => ?_) k
        · simp [hw, he, haa]
        · simp [hw, he]
      · simp [hw, he]
      · simp [hw, he]
    have hMw : M *ᵥ w = Sum.elim (Fin.append (fun _ : Fin ns => 0)
        fun i : Fin nd => symRow (nd + mc + m) W z i)
      (Sum.elim (fun i : Fin mc => symRow (nd + mc + m) W z (nd + i))
        fun i : Fin m => symRow (nd + mc + m) W z (nd + mc + i)) := hrows
    have hwMw : w ⬝ᵥ M *ᵥ w = p v ⬝ᵥ symOf (nd + mc + m) W *ᵥ p v := by
      rw [hMw, hpz]
      have : symOf (nd + mc + m) W *ᵥ (fun k : Fin (nd + mc + m) => z k) =
          fun k : Fin (nd + mc + m) => symRow (nd + mc + m) W z k := funext fun k => symOf_mulVec _ _ _ _
      rw [this, dot_three]
      simp only [hw, dotProduct, Fintype.sum_sum_type, Sum.elim_inl, Sum.elim_inr, Fin.sum_univ_add,
        Fin.append_left, Fin.append_right, mul_zero, Finset.sum_const_zero, zero_add, z1, z2, z3]
      ring
    have heMw : e ⬝ᵥ M *ᵥ w = 0 := by
      rw [hMw]
      simp only [he, dotProduct, Fintype.sum_sum_type, Sum.elim_inl, Sum.elim_inr, Fin.sum_univ_add,
        Fin.append_left, Fin.append_right, mul_zero, zero_mul, Finset.sum_const_zero, zero_add]
    have hMe : ∀ i, (M *ᵥ e) (Sum.inl (Fin.castAdd nd i)) = hxs i * a i v := by
      intro i
      rw [hMdef, he, kkt3_mulVec]
      simp only [Sum.elim_inl, MdsMats.toMats, Fin.sum_univ_add, Fin.append_left, Fin.append_right,
        Fin.addCases_left, Fin.addCases_right, zero_mul, Finset.sum_const_zero, add_zero, mul_zero,
        ite_mul, Finset.sum_ite_eq, Finset.mem_univ, if_true, hhxs, mdsHxs]
      ring
    have heMe : e ⬝ᵥ M *ᵥ e = ∑ i, hxs i * a i v ^ 2 := by
      have : e ⬝ᵥ M *ᵥ e = ∑ i, a i v * (M *ᵥ e) (Sum.inl (Fin.castAdd nd i)) := by
        conv_lhs => rw [dotProduct, Fintype.sum_sum_type, Fin.sum_univ_add, Fintype.sum_sum_type]
        simp only [he, Sum.elim_inl, Sum.elim_inr, Fin.append_left, Fin.append_right, zero_mul,
          Finset.sum_const_zero, add_zero]
      rw [this]
      exact Finset.sum_congr rfl fun i _ => by rw [hMe]; ring
    have hsymm : w ⬝ᵥ M *ᵥ e = e ⬝ᵥ M *ᵥ w := by
      have ht : Mᵀ = M := by
        have := kkt3_symm hM (fun i => dx i + dl.wx i) dl.cc (fun i => ddInv i + dl.cd i)
        simpa [IsHermitian, conjTranspose_eq_transpose_of_trivial] using this
      rw [dotProduct_mulVec, ← mulVec_transpose, ht, dotProduct_comm]
    have : v ⬝ᵥ M *ᵥ v = w ⬝ᵥ M *ᵥ w + 2 * (e ⬝ᵥ M *ᵥ w) + e ⬝ᵥ M *ᵥ e := by
      conv_lhs => rw [hv]
      rw [mulVec_add, dotProduct_add, add_dotProduct, add_dotProduct, hsymm]
      ring
    rw [this, heMw, heMe, hwMw]
    ring

end Hiop.Kkt
