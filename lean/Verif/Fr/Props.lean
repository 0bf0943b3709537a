import Verif.Fr.Lemmas

/-!
# Property C48: the feasibility-restoration problem handed to the inner solver

The restoration problem in the variables `(x, pe, ne, pi, ni)` is

  min  rho * sum(pe + ne + pi + ni) + zeta/2 * |DR (x - xref)|^2
  s.t. c(x) - pe + ne = crhs,  dl <= d(x) - pi + ni <= du,  xl <= x <= xu,  0 <= pe, ne, pi, ni.

The theorems say that what the callbacks of the three classes write into the solver's arrays is this
problem with correct first and second derivatives.
-/

set_option linter.unusedSimpArgs false
set_option linter.unusedSectionVars false
set_option linter.unusedVariables false

namespace Hiop.Fr

open Hiop.Vec Hiop.Kkt Hiop.QN Hiop.Iterate Hiop.Barrier Hiop.Sparse Finset

variable {n mc m ns nd : ℕ}

/-- **C48, layout.** The base variables and the four blocks occupy the `n + 2 mc + 2 m` positions of
the array, each exactly once. -/
theorem C48_layout {L : Layout n mc m} (hL : IsLayout L) :
    ∃ ix : Fin n → ℕ, Function.Injective ix ∧ (∀ x i, L.getX x i = x (ix i)) ∧
      L.ne = L.pe + mc ∧ L.pi = L.ne + mc ∧ L.ni = L.pi + m ∧
      (∀ k, k < n + 2 * mc + 2 * m ↔
        (∃ i, ix i = k) ∨ (L.pe ≤ k ∧ k < L.ni + m)) ∧
      ∀ i, ¬(L.pe ≤ ix i ∧ ix i < L.ni + m) := by
  obtain ⟨pl⟩ := hL.places
  refine ⟨pl.ix, pl.inj, pl.get, pl.hne, pl.hpi, pl.hni, fun k => ⟨fun h => ?_, ?_⟩, fun i => ?_⟩
  · by_cases hb : L.pe ≤ k ∧ k < L.ni + m
    · exact Or.inr hb
    · exact Or.inl (pl.cover k h (by omega))
  · rintro (⟨i, rfl⟩ | h)
    · exact pl.lt i
    · have := pl.le; simp only [nTot] at this; omega
  · have := pl.out i; omega

example : IsLayout (mdsL 2 1 1 2) := .mds ..

/-- **C48, bounds.** -/
theorem C48_bounds {L : Layout n mc m} (hL : IsLayout L) (B : Base n mc m) :
    L.getX (varsInfo L B).1 = B.xl ∧ L.getX (varsInfo L B).2 = B.xu ∧
      (∀ k, L.pe ≤ k → k < L.ni + m → (varsInfo L B).1 k = 0 ∧ (varsInfo L B).2 k = 1e20) ∧
      (∀ i : Fin mc, (consInfo B).1 i = B.crhs i ∧ (consInfo B).2 i = B.crhs i) ∧
      ∀ i : Fin m, (consInfo B).1 (mc + i) = B.dl i ∧ (consInfo B).2 (mc + i) = B.du i := by
  obtain ⟨pl⟩ := hL.places
  refine ⟨getX_putX pl _ _, getX_putX pl _ _, fun k h1 h2 => ⟨?_, ?_⟩, fun i => ⟨?_, ?_⟩,
    fun i => ⟨?_, ?_⟩⟩
  · exact putX_block pl _ _ k h1 h2
  · exact putX_block pl _ _ k h1 h2
  · have := i.2
    simp only [consInfo]
    rw [copyTo_out _ _ _ _ (by omega)]
    simpa using copyTo_in B.crhs (fun _ => 0) 0 i
  · have := i.2
    simp only [consInfo]
    rw [copyTo_out _ _ _ _ (by omega), copyTo_out _ _ _ _ (by omega)]
    simpa using copyTo_in B.crhs (fun _ => 0) 0 i
  · exact copyTo_in _ _ _ i
  · exact copyTo_in _ _ _ i

/-- **C48, objective.** -/
theorem C48_objective {L : Layout n mc m} (hL : IsLayout L) (B : Base n mc m) (P : Prob n m)
    (x : ℕ → ℝ) :
    (evalF L B P x).1 =
      P.rho * (∑ i : Fin mc, (x (L.pe + i) + x (L.ne + i)) +
        ∑ i : Fin m, (x (L.pi + i) + x (L.ni + i))) +
      P.zeta / 2 * ∑ i, (P.dr i * (L.getX x i - P.xref i)) ^ 2 := by
  obtain ⟨pl⟩ := hL.places
  have h1 : sumLocal (copyOut x 0 (nTot n mc m)) = ∑ k ∈ range (nTot n mc m), x k := by
    rw [sumLocal_eq_sum, Finset.sum_range]
    exact Finset.sum_congr rfl fun i _ => by simp [copyOut]
  simp only [evalF]
  rw [h1, pl.sum, sumLocal_eq_sum]
  have h2 : ∀ w : RVec ℝ n, twonorm w * twonorm w = ∑ i, w i ^ 2 := by
    intro w
    rw [twonorm, Real.mul_self_sqrt, dot_eq_sum]
    · exact Finset.sum_congr rfl fun i _ => by ring
    · rw [dot_eq_sum]
      exact Finset.sum_nonneg fun i _ => mul_self_nonneg _
  rw [mul_assoc (0.5 * P.zeta), h2]
  have h3 : ∀ i, componentMult (axpy (L.getX x) (-1) P.xref) P.dr i ^ 2
      = (P.dr i * (L.getX x i - P.xref i)) ^ 2 := by
    intro i; simp only [componentMult, axpy]; ring
  rw [Finset.sum_congr rfl fun i _ => h3 i, Finset.sum_congr rfl fun i _ => (pl.get x i)]
  simp only [Finset.sum_add_distrib]
  ring

/-- **C48, gradient.** The array written by `eval_grad_f` is the gradient of the objective. -/
theorem C48_gradient {L : Layout n mc m} (hL : IsLayout L) (B : Base n mc m) (P : Prob n m)
    (x v : ℕ → ℝ) :
    HasDerivAt (fun t : ℝ => (evalF L B P fun k => x k + t * v k).1)
      (∑ k ∈ range (n + 2 * mc + 2 * m), evalGrad L P x k * v k) 0 := by
  obtain ⟨pl⟩ := hL.places
  have hg : ∑ k ∈ range (n + 2 * mc + 2 * m), evalGrad L P x k * v k =
      P.rho * (∑ i : Fin mc, (v (L.pe + i) + v (L.ne + i)) +
        ∑ i : Fin m, (v (L.pi + i) + v (L.ni + i))) +
      P.zeta / 2 * ∑ i, (2 * (P.dr i * (L.getX x i - P.xref i)) * (P.dr i * L.getX v i)) := by
    have hb : ∀ k, L.pe ≤ k → k < L.ni + m → evalGrad L P x k = P.rho := fun k h1 h2 =>
      putX_block pl _ _ k h1 h2
    have e1 := pl.hne; have e2 := pl.hpi; have e3 := pl.hni
    rw [show n + 2 * mc + 2 * m = nTot n mc m from rfl, pl.sum]
    have hx : ∀ i, evalGrad L P x (pl.ix i) * v (pl.ix i) =
        P.zeta / 2 * (2 * (P.dr i * (L.getX x i - P.xref i)) * (P.dr i * L.getX v i)) := by
      intro i
      rw [evalGrad, pl.put, scale_apply, pl.get v]
      simp only [componentMult, axpy]; ring
    have b1 : ∀ i : Fin mc, evalGrad L P x (L.pe + i) = P.rho := fun i =>
      hb _ (by omega) (by have := i.2; omega)
    have b2 : ∀ i : Fin mc, evalGrad L P x (L.ne + i) = P.rho := fun i =>
      hb _ (by omega) (by have := i.2; omega)
    have b3 : ∀ i : Fin m, evalGrad L P x (L.pi + i) = P.rho := fun i =>
      hb _ (by omega) (by have := i.2; omega)
    have b4 : ∀ i : Fin m, evalGrad L P x (L.ni + i) = P.rho := fun i =>
      hb _ (by omega) (by have := i.2; omega)
    simp only [hx, b1, b2, b3, b4]
    simp only [Finset.sum_add_distrib, Finset.mul_sum, mul_add]
    ring
  rw [hg]
  have lin : ∀ k, HasDerivAt (fun t : ℝ => x k + t * v k) (v k) 0 := fun k => by
    simpa using ((hasDerivAt_id (0 : ℝ)).mul_const (v k)).const_add (x k)
  have hf : (fun t : ℝ => (evalF L B P fun k => x k + t * v k).1) = fun t =>
      P.rho * (∑ i : Fin mc, ((x (L.pe + i) + t * v (L.pe + i)) +
          (x (L.ne + i) + t * v (L.ne + i))) +
        ∑ i : Fin m, ((x (L.pi + i) + t * v (L.pi + i)) + (x (L.ni + i) + t * v (L.ni + i)))) +
      P.zeta / 2 * ∑ i, (P.dr i * ((L.getX x i + t * L.getX v i) - P.xref i)) ^ 2 := by
    funext t
    rw [C48_objective hL]
    simp only [pl.get]
  rw [hf]
  refine HasDerivAt.add (HasDerivAt.const_mul _ (HasDerivAt.add ?_ ?_)) (HasDerivAt.const_mul _ ?_)
  · exact HasDerivAt.fun_sum fun i _ => (lin _).add (lin _)
  · exact HasDerivAt.fun_sum fun i _ => (lin _).add (lin _)
  · refine HasDerivAt.fun_sum fun i _ => ?_
    have h1 : HasDerivAt (fun t : ℝ => P.dr i * ((L.getX x i + t * L.getX v i) - P.xref i))
        (P.dr i * L.getX v i) 0 := by
      have := ((((hasDerivAt_id (0 : ℝ)).mul_const (L.getX v i)).const_add (L.getX x i)).sub_const
        (P.xref i)).const_mul (P.dr i)
      simpa using this
    have h2 := h1.fun_pow 2
    exact h2.congr_deriv (by norm_num)

/-- **C48, constraints.** -/
theorem C48_constraints {L : Layout n mc m} (B : Base n mc m) (oldC : RVec ℝ mc)
    (oldD : RVec ℝ m) (x : ℕ → ℝ) {c : RVec ℝ mc} {d : RVec ℝ m}
    (h : B.cd (L.getX x) = some (c, d)) :
    (∀ i : Fin mc, evalCons L B oldC oldD x i = c i - x (L.pe + i) + x (L.ne + i)) ∧
      ∀ i : Fin m, evalCons L B oldC oldD x (mc + i) = d i - x (L.pi + i) + x (L.ni + i) := by
  refine ⟨fun i => ?_, fun i => ?_⟩
  · have := i.2
    simp only [evalCons, h, Option.getD_some]
    rw [copyTo_out _ _ _ _ (by omega)]
    have := copyTo_in (axpy (axpy c (-1) (copyOut x L.pe mc)) 1 (copyOut x L.ne mc))
      (fun _ => 0) 0 i
    rw [Nat.zero_add] at this
    rw [this]
    simp only [axpy, copyOut]; ring
  · simp only [evalCons, h, Option.getD_some]
    rw [copyTo_in]
    simp only [axpy, copyOut]; ring

/-! ## Jacobian -/

/-- `J i` is the derivative of row `i` of the constraints of the restoration problem. -/
def IsJac (L : Layout n mc m) (B : Base n mc m) (oldC : RVec ℝ mc) (oldD : RVec ℝ m) (x : ℕ → ℝ)
    (J : ℕ → ℕ → ℝ) : Prop :=
  ∀ i < mc + m, ∀ v : ℕ → ℝ, HasDerivAt (fun t : ℝ => evalCons L B oldC oldD (fun k => x k + t * v k) i)
    (∑ k ∈ range (n + 2 * mc + 2 * m), J i k * v k) 0

/-- `Jc`, `Jd` are the Jacobians of the constraint bodies of the base problem at `x`. -/
def BaseJac (c : RVec ℝ n → RVec ℝ mc) (d : RVec ℝ n → RVec ℝ m) (x : RVec ℝ n)
    (Jc : Fin mc → Fin n → ℝ) (Jd : Fin m → Fin n → ℝ) : Prop :=
  (∀ i (v : RVec ℝ n), HasDerivAt (fun t : ℝ => c (fun j => x j + t * v j) i) (∑ j, Jc i j * v j) 0) ∧
    ∀ i (v : RVec ℝ n), HasDerivAt (fun t : ℝ => d (fun j => x j + t * v j) i) (∑ j, Jd i j * v j) 0

/-- Block form of the restoration Jacobian. -/
structure JacBlocks {L : Layout n mc m} (pl : Places L) (J : ℕ → ℕ → ℝ) (Jc : Fin mc → Fin n → ℝ)
    (Jd : Fin m → Fin n → ℝ) : Prop where
  cx : ∀ i j, J (i : Fin mc) (pl.ix j) = Jc i j
  cpe : ∀ (i k : Fin mc), J i (L.pe + k) = if k = i then -1 else 0
  cne : ∀ (i k : Fin mc), J i (L.ne + k) = if k = i then 1 else 0
  cpi : ∀ (i : Fin mc) (k : Fin m), J i (L.pi + k) = 0
  cni : ∀ (i : Fin mc) (k : Fin m), J i (L.ni + k) = 0
  dx : ∀ (i : Fin m) j, J (mc + i) (pl.ix j) = Jd i j
  dpe : ∀ (i : Fin m) (k : Fin mc), J (mc + i) (L.pe + k) = 0
  dne : ∀ (i : Fin m) (k : Fin mc), J (mc + i) (L.ne + k) = 0
  dpi : ∀ (i k : Fin m), J (mc + i) (L.pi + k) = if k = i then -1 else 0
  dni : ∀ (i k : Fin m), J (mc + i) (L.ni + k) = if k = i then 1 else 0

theorem lin_deriv (a b : ℝ) : HasDerivAt (fun t : ℝ => a + t * b) b 0 := by
  simpa using ((hasDerivAt_id (0 : ℝ)).mul_const b).const_add a

theorem isJac_of_blocks {L : Layout n mc m} (pl : Places L) (B : Base n mc m)
    {c : RVec ℝ n → RVec ℝ mc} {d : RVec ℝ n → RVec ℝ m} (hB : ∀ x, B.cd x = some (c x, d x))
    (oldC : RVec ℝ mc) (oldD : RVec ℝ m) (x : ℕ → ℝ) {J : ℕ → ℕ → ℝ} {Jc : Fin mc → Fin n → ℝ}
    {Jd : Fin m → Fin n → ℝ} (hb : JacBlocks pl J Jc Jd) (hJ : BaseJac c d (L.getX x) Jc Jd) :
    IsJac L B oldC oldD x J := by
  have hgx : ∀ (v : ℕ → ℝ) (t : ℝ), L.getX (fun k => x k + t * v k) =
      fun j => L.getX x j + t * L.getX v j := fun v t => by funext j; simp only [pl.get]
  intro i hi v
  rw [show n + 2 * mc + 2 * m = nTot n mc m from rfl, pl.sum]
  by_cases h : i < mc
  · obtain ⟨i, rfl⟩ : ∃ i' : Fin mc, (i' : ℕ) = i := ⟨⟨i, h⟩, rfl⟩
    have hs : (fun t : ℝ => evalCons L B oldC oldD (fun k => x k + t * v k) i) = fun t =>
        c (fun j => L.getX x j + t * L.getX v j) i - (x (L.pe + i) + t * v (L.pe + i))
          + (x (L.ne + i) + t * v (L.ne + i)) := by
      funext t
      rw [(C48_constraints B oldC oldD _ (hB _)).1 i, hgx]
    rw [hs]
    simp only [hb.cx, hb.cpe, hb.cne, hb.cpi, hb.cni, ite_mul, zero_mul, Finset.sum_const_zero,
      add_zero, Finset.sum_ite_eq', Finset.mem_univ, if_true]
    have := ((hJ.1 i (L.getX v)).sub (lin_deriv (x (L.pe + i)) (v (L.pe + i)))).add
      (lin_deriv (x (L.ne + i)) (v (L.ne + i)))
    exact this.congr_deriv (by simp only [pl.get]; ring)
  · obtain ⟨i, rfl⟩ : ∃ i' : Fin m, mc + (i' : ℕ) = i := ⟨⟨i - mc, by omega⟩, by simp; omega⟩
    have hs : (fun t : ℝ => evalCons L B oldC oldD (fun k => x k + t * v k) (mc + i)) = fun t =>
        d (fun j => L.getX x j + t * L.getX v j) i - (x (L.pi + i) + t * v (L.pi + i))
          + (x (L.ni + i) + t * v (L.ni + i)) := by
      funext t
      rw [(C48_constraints B oldC oldD _ (hB _)).2 i, hgx]
    rw [hs]
    simp only [hb.dx, hb.dpe, hb.dne, hb.dpi, hb.dni, ite_mul, zero_mul, Finset.sum_const_zero,
      add_zero, Finset.sum_ite_eq', Finset.mem_univ, if_true]
    have := ((hJ.2 i (L.getX v)).sub (lin_deriv (x (L.pi + i)) (v (L.pi + i)))).add
      (lin_deriv (x (L.ni + i)) (v (L.ni + i)))
    exact this.congr_deriv (by simp only [pl.get]; ring)

theorem sparse_blocks {Jc Jd : List (Ent ℝ)} (hc : RowSorted Jc) (hd : RowSorted Jd)
    (rc : InRange mc n Jc) (rd : InRange m n Jd) {l : List (Ent ℝ)}
    (hl : setJacFR n mc m Jc Jd (Jc.length + 2 * mc + (Jd.length + 2 * m)) = some l) :
    JacBlocks (sparsePlaces n mc m) (entry l) (fun i j => entry Jc i j) (fun i j => entry Jd i j) := by
  obtain ⟨l', hl', -, h1, h2⟩ := C27_setJacFR n mc m Jc Jd hc hd rc rd
  obtain rfl : l' = l := by rw [hl'] at hl; exact Option.some.inj hl
  constructor
  · intro i j
    rw [h1 _ _ i.2]; exact if_pos j.2
  · intro i k
    have hi := i.2; have hk := k.2
    simp only [sparseL]
    rw [h1 _ _ i.2]
    rw [if_neg (by omega)]
    by_cases h : k = i
    · simp [h]
    · have : (k : ℕ) ≠ i := fun e => h (Fin.ext e)
      rw [if_neg (by omega), if_neg (by omega), if_neg h]
  · intro i k
    have hi := i.2; have hk := k.2
    simp only [sparseL]
    rw [h1 _ _ i.2]
    rw [if_neg (by omega), if_neg (by omega)]
    by_cases h : k = i
    · simp [h]
    · have : (k : ℕ) ≠ i := fun e => h (Fin.ext e)
      rw [if_neg (by omega), if_neg h]
  · intro i k
    have hi := i.2; have hk := k.2
    simp only [sparseL]
    rw [h1 _ _ i.2]
    rw [if_neg (by omega), if_neg (by omega), if_neg (by omega)]
  · intro i k
    have hi := i.2; have hk := k.2
    simp only [sparseL]
    rw [h1 _ _ i.2]
    rw [if_neg (by omega), if_neg (by omega), if_neg (by omega)]
  · intro i j
    rw [h2 _ _ i.2]; exact if_pos j.2
  · intro i k
    have hi := i.2; have hk := k.2
    simp only [sparseL]
    rw [h2 _ _ i.2]
    rw [if_neg (by omega), if_neg (by omega), if_neg (by omega)]
  · intro i k
    have hi := i.2; have hk := k.2
    simp only [sparseL]
    rw [h2 _ _ i.2]
    rw [if_neg (by omega), if_neg (by omega), if_neg (by omega)]
  · intro i k
    have hi := i.2; have hk := k.2
    simp only [sparseL]
    rw [h2 _ _ i.2]
    rw [if_neg (by omega)]
    by_cases h : k = i
    · subst h; rw [if_pos (by omega), if_pos rfl]
    · have : (k : ℕ) ≠ i := fun e => h (Fin.ext e)
      rw [if_neg (by omega), if_neg (by omega), if_neg h]
  · intro i k
    have hi := i.2; have hk := k.2
    simp only [sparseL]
    rw [h2 _ _ i.2]
    rw [if_neg (by omega), if_neg (by omega)]
    by_cases h : k = i
    · subst h; rw [if_pos (by omega), if_pos rfl]
    · have : (k : ℕ) ≠ i := fun e => h (Fin.ext e)
      rw [if_neg (by omega), if_neg h]

/-- **C48, Jacobian (sparse class).** For base Jacobians stored by rows, `set_Jac_FR` succeeds and its
triplets are the Jacobian of the restoration constraints. -/
theorem C48_jacobian (B : Base n mc m) {c : RVec ℝ n → RVec ℝ mc} {d : RVec ℝ n → RVec ℝ m}
    (hB : ∀ x, B.cd x = some (c x, d x)) (oldC : RVec ℝ mc) (oldD : RVec ℝ m) (x : ℕ → ℝ)
    {Jc Jd : List (Ent ℝ)} (hc : RowSorted Jc) (hd : RowSorted Jd) (rc : InRange mc n Jc)
    (rd : InRange m n Jd)
    (hJ : BaseJac c d ((sparseL n mc m).getX x) (fun i j => entry Jc i j) (fun i j => entry Jd i j)) :
    ∃ l, setJacFR n mc m Jc Jd (Jc.length + 2 * mc + (Jd.length + 2 * m)) = some l ∧
      IsJac (sparseL n mc m) B oldC oldD x (entry l) := by
  obtain ⟨l, hl, -⟩ := C27_setJacFR n mc m Jc Jd hc hd rc rd
  exact ⟨l, hl, isJac_of_blocks (sparsePlaces n mc m) B hB oldC oldD x
    (sparse_blocks hc hd rc rd hl) hJ⟩

/-- The matrix of a mixed dense-sparse Jacobian: sparse columns first. -/
noncomputable def mdsMat (nsp : ℕ) (S : List (Ent ℝ)) (D : ℕ → ℕ → ℝ) : ℕ → ℕ → ℝ :=
  fun i k => if k < nsp then entry S i k else D i (k - nsp)

theorem mdsMat_lt {nsp : ℕ} (S : List (Ent ℝ)) (D : ℕ → ℕ → ℝ) (i : ℕ) {k : ℕ} (h : k < nsp) :
    mdsMat nsp S D i k = entry S i k := if_pos h

theorem mdsMat_ge {nsp : ℕ} (S : List (Ent ℝ)) (D : ℕ → ℕ → ℝ) (i k : ℕ) :
    mdsMat nsp S D i (nsp + k) = D i k := by simp [mdsMat]

theorem mds_blocks {JcS JdS : List (Ent ℝ)} (JcD JdD : ℕ → ℕ → ℝ) (hc : RowSorted JcS)
    (hd : RowSorted JdS) (rc : InRange mc ns JcS) (rd : InRange m ns JdS)
    {J : List (Ent ℝ) × (ℕ → ℕ → ℝ)}
    (hJ : mdsJacFR ns mc m JcS JdS JcD JdD (JcS.length + 2 * mc + (JdS.length + 2 * m)) = some J) :
    JacBlocks (mdsPlaces ns nd mc m) (mdsMat (ns + 2 * mc + 2 * m) J.1 J.2)
      (fun i j => mdsMat ns JcS JcD i j) (fun i j => mdsMat ns JdS JdD i j) := by
  obtain ⟨l, hl, -, -⟩ := C27_setJacFR ns mc m JcS JdS hc hd rc rd
  have sb := sparse_blocks hc hd rc rd hl
  obtain rfl : J = (l, fun i k => if i < mc then JcD i k else JdD (i - mc) k) := by
    rw [mdsJacFR, hl] at hJ
    exact (Option.some.inj hJ).symm
  constructor
  · intro i j
    cases j using Fin.addCases with
    | left j =>
      have := j.2
      simp only [mdsPlaces, Fin.append_left, Fin.val_castAdd]
      rw [mdsMat_lt _ _ _ (by omega), mdsMat_lt _ _ _ (by omega)]
      exact sb.cx i j
    | right j =>
      simp only [mdsPlaces, Fin.append_right, Fin.val_natAdd]
      rw [show ns + mc + mc + m + m + (j : ℕ) = ns + 2 * mc + 2 * m + j by omega, mdsMat_ge,
        mdsMat_ge, if_pos i.2]
  · intro i k
    have hi := i.2; have hk := k.2
    simp only [mdsL]; rw [mdsMat_lt _ _ _ (by omega)]; exact sb.cpe i k
  · intro i k
    have hi := i.2; have hk := k.2
    simp only [mdsL]; rw [mdsMat_lt _ _ _ (by omega)]; exact sb.cne i k
  · intro i k
    have hi := i.2; have hk := k.2
    simp only [mdsL]; rw [mdsMat_lt _ _ _ (by omega)]; exact sb.cpi i k
  · intro i k
    have hi := i.2; have hk := k.2
    simp only [mdsL]; rw [mdsMat_lt _ _ _ (by omega)]; exact sb.cni i k
  · intro i j
    cases j using Fin.addCases with
    | left j =>
      have := j.2
      simp only [mdsPlaces, Fin.append_left, Fin.val_castAdd]
      rw [mdsMat_lt _ _ _ (by omega), mdsMat_lt _ _ _ (by omega)]
      exact sb.dx i j
    | right j =>
      simp only [mdsPlaces, Fin.append_right, Fin.val_natAdd]
      rw [show ns + mc + mc + m + m + (j : ℕ) = ns + 2 * mc + 2 * m + j by omega, mdsMat_ge,
        mdsMat_ge, if_neg (by omega), Nat.add_sub_cancel_left]
  · intro i k
    have hi := i.2; have hk := k.2
    simp only [mdsL]; rw [mdsMat_lt _ _ _ (by omega)]; exact sb.dpe i k
  · intro i k
    have hi := i.2; have hk := k.2
    simp only [mdsL]; rw [mdsMat_lt _ _ _ (by omega)]; exact sb.dne i k
  · intro i k
    have hi := i.2; have hk := k.2
    simp only [mdsL]; rw [mdsMat_lt _ _ _ (by omega)]; exact sb.dpi i k
  · intro i k
    have hi := i.2; have hk := k.2
    simp only [mdsL]; rw [mdsMat_lt _ _ _ (by omega)]; exact sb.dni i k

/-- **C48, Jacobian (mixed dense-sparse class).** -/
theorem C48_jacobian_mds (B : Base (ns + nd) mc m) {c : RVec ℝ (ns + nd) → RVec ℝ mc}
    {d : RVec ℝ (ns + nd) → RVec ℝ m} (hB : ∀ x, B.cd x = some (c x, d x)) (oldC : RVec ℝ mc)
    (oldD : RVec ℝ m) (x : ℕ → ℝ) {JcS JdS : List (Ent ℝ)} (JcD JdD : ℕ → ℕ → ℝ)
    (hc : RowSorted JcS) (hd : RowSorted JdS) (rc : InRange mc ns JcS) (rd : InRange m ns JdS)
    (hJ : BaseJac c d ((mdsL ns nd mc m).getX x) (fun i j => mdsMat ns JcS JcD i j)
      (fun i j => mdsMat ns JdS JdD i j)) :
    ∃ J, mdsJacFR ns mc m JcS JdS JcD JdD (JcS.length + 2 * mc + (JdS.length + 2 * m)) = some J ∧
      IsJac (mdsL ns nd mc m) B oldC oldD x (mdsMat (ns + 2 * mc + 2 * m) J.1 J.2) := by
  obtain ⟨l, hl, -⟩ := C27_setJacFR ns mc m JcS JdS hc hd rc rd
  have : mdsJacFR ns mc m JcS JdS JcD JdD (JcS.length + 2 * mc + (JdS.length + 2 * m))
      = some (l, fun i k => if i < mc then JcD i k else JdD (i - mc) k) := by
    rw [mdsJacFR, hl]; rfl
  exact ⟨_, this, isJac_of_blocks (mdsPlaces ns nd mc m) B hB oldC oldD x
    (mds_blocks JcD JdD hc hd rc rd this) hJ⟩

/-- **C48, Jacobian (dense class, one rank).** -/
theorem C48_jacobian_dense (B : Base n mc m) {c : RVec ℝ n → RVec ℝ mc} {d : RVec ℝ n → RVec ℝ m}
    (hB : ∀ x, B.cd x = some (c x, d x)) (oldC : RVec ℝ mc) (oldD : RVec ℝ m) (x : ℕ → ℝ)
    (Jc Jd : ℕ → ℕ → ℝ)
    (hJ : BaseJac c d ((sparseL n mc m).getX x) (fun i j => Jc i j) (fun i j => Jd i j)) :
    IsJac (sparseL n mc m) B oldC oldD x (denseJacFR n mc m Jc Jd) := by
  refine isJac_of_blocks (sparsePlaces n mc m) B hB oldC oldD x ?_ hJ
  constructor
  · intro i j
    simp [denseJacFR, sparsePlaces, i.2, j.2]
  · intro i k
    have hi := i.2; have hk := k.2
    simp only [sparseL]
    simp only [denseJacFR]
    rw [if_pos i.2, if_neg (by omega), if_neg (by omega)]
    by_cases h : k = i
    · simp [h]
    · have : (k : ℕ) ≠ i := fun e => h (Fin.ext e)
      rw [if_neg (by omega), if_neg h]
  · intro i k
    have hi := i.2; have hk := k.2
    simp only [sparseL]
    simp only [denseJacFR]
    rw [if_pos i.2, if_neg (by omega)]
    by_cases h : k = i
    · simp [h]
    · have : (k : ℕ) ≠ i := fun e => h (Fin.ext e)
      rw [if_neg (by omega), if_neg (by omega), if_neg h]
  · intro i k
    have hi := i.2; have hk := k.2
    simp only [sparseL]
    simp only [denseJacFR]
    rw [if_pos i.2, if_neg (by omega), if_neg (by omega), if_neg (by omega)]
  · intro i k
    have hi := i.2; have hk := k.2
    simp only [sparseL]
    simp only [denseJacFR]
    rw [if_pos i.2, if_neg (by omega), if_neg (by omega), if_neg (by omega)]
  · intro i j
    simp [denseJacFR, sparsePlaces, i.2, j.2]
  · intro i k
    have hi := i.2; have hk := k.2
    simp only [sparseL]
    simp only [denseJacFR]
    rw [if_neg (by omega), if_pos (by omega), if_neg (by omega), if_neg (by omega),
      if_neg (by omega)]
  · intro i k
    have hi := i.2; have hk := k.2
    simp only [sparseL]
    simp only [denseJacFR]
    rw [if_neg (by omega), if_pos (by omega), if_neg (by omega), if_neg (by omega),
      if_neg (by omega)]
  · intro i k
    have hi := i.2; have hk := k.2
    simp only [sparseL]
    simp only [denseJacFR]
    rw [if_neg (by omega), if_pos (by omega), if_neg (by omega), if_neg (by omega)]
    by_cases h : k = i
    · subst h; rw [if_pos (by omega), if_pos rfl]
    · have : (k : ℕ) ≠ i := fun e => h (Fin.ext e)
      rw [if_neg (by omega), if_neg h]
  · intro i k
    have hi := i.2; have hk := k.2
    simp only [sparseL]
    simp only [denseJacFR]
    rw [if_neg (by omega), if_pos (by omega), if_neg (by omega)]
    by_cases h : k = i
    · subst h; rw [if_pos (by omega), if_pos rfl]
    · have : (k : ℕ) ≠ i := fun e => h (Fin.ext e)
      rw [if_neg (by omega), if_neg (by omega), if_neg h]

/-- A base problem with `c(x) = x0 * x1`, `d(x) = x0` and its Jacobians. -/
example (x : ℕ → ℝ) : ∃ l, setJacFR 2 1 1 [⟨0, 0, x 1⟩, ⟨0, 1, x 0⟩] [⟨0, 0, 1⟩] 7 = some l ∧
    IsJac (sparseL 2 1 1)
      { f := fun x => some (x 0), cd := fun x => some (fun _ => x 0 * x 1, fun _ => x 0)
        xl := 0, xu := 1, crhs := 0, dl := 0, du := 1 } 0 0 x (entry l) := by
  refine C48_jacobian _ (c := fun x _ => x 0 * x 1) (d := fun x _ => x 0) (fun x => rfl) 0 0 x
    (Jc := [⟨0, 0, x 1⟩, ⟨0, 1, x 0⟩]) (Jd := [⟨0, 0, 1⟩]) (by simp [RowSorted])
    (by simp [RowSorted]) (by simp [InRange]) (by simp [InRange]) ⟨fun i v => ?_, fun i v => ?_⟩
  · refine ((lin_deriv (x 0) (v 0)).fun_mul (lin_deriv (x 1) (v 1))).congr_deriv ?_
    fin_cases i
    simp [entry, Fin.sum_univ_two]; ring
  · refine (lin_deriv (x 0) (v 0)).congr_deriv ?_
    fin_cases i
    simp [entry, Fin.sum_univ_two]

end Hiop.Fr
