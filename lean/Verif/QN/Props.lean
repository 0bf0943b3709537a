import Verif.QN.Solve
import Verif.Kkt.Systems
import Mathlib.LinearAlgebra.Matrix.ToLinearEquiv

/-!
# C44: theorems on the quasi-Newton matrix, stated for all histories
-/

set_option linter.unusedSectionVars false

namespace Hiop.QN

open Hiop.Vec Hiop.Kkt Matrix

variable {n mc m k : ℕ}

/-- States reached by calls in any order from a freshly built object. -/
def Reach (la : Lapack) (eps : ℝ) (sigma0 : ℝ) (q : St n mc m) : Prop :=
  ∃ lMax strat junk ops, run la eps (fresh lMax strat sigma0 junk) ops = some q

/-- The BFGS matrix of the object: pairs in memory, started from its multiple of the identity. -/
noncomputable def matrixOf (q : St n mc m) : Matrix (Fin n) (Fin n) ℝ :=
  bfgs q.sigma (q.S.zip q.Y)

/-- Calls that only use the matrix. -/
def IsQuery : Op n mc m → Prop
  | .solve _ => True
  | .inverse _ _ _ _ _ => True
  | _ => False

theorem Reach.mem {la : Lapack} {eps sigma0 : ℝ} {q : St n mc m} (he : 0 < eps)
    (h : Reach la eps sigma0 q) : MemOk q (q.S.zip q.Y) ∧ PosPairs (q.S.zip q.Y) ∧
      (0 < sigma0 → 0 < q.sigma) := by
  obtain ⟨lMax, strat, junk, ops, hr⟩ := h
  have i := run_inv he ops (inv_fresh eps lMax strat sigma0 junk) hr
  rw [List.nil_append] at i
  have hz := (C29_memory la he lMax strat sigma0 junk ops q hr).1
  refine ⟨by rw [hz]; exact i.mem, fun p hp => ?_, (C29_sigma la he _ _ _ _ _ _ hr).2.2⟩
  exact (C29_curvature la he lMax strat sigma0 junk ops q hr p hp).2

/-- **C44, positive definiteness.** In every reachable state the quasi-Newton matrix is symmetric
positive definite, also after adding a nonnegative barrier diagonal. -/
theorem C44_positive_definite {la : Lapack} {eps sigma0 : ℝ} (he : 0 < eps) (h0 : 0 < sigma0)
    {q : St n mc m} (h : Reach la eps sigma0 q) (dx : RVec ℝ n) (hdx : ∀ i, 0 ≤ dx i) :
    (matrixOf q).IsSymm ∧
    ∀ x, x ≠ 0 → 0 < x ⬝ᵥ matrixOf q *ᵥ x ∧ 0 < x ⬝ᵥ (matrixOf q + diagonal dx) *ᵥ x := by
  obtain ⟨-, hp, hs⟩ := h.mem he
  have hB := bfgs_spd (hs h0) _ hp
  exact ⟨hB.1, fun x hx => ⟨hB.2 x hx, (spd_add_diag hB hdx).2 x hx⟩⟩

/-- **C44, secant equation.** The newest stored pair satisfies `B s = y`. -/
theorem C44_secant {la : Lapack} {eps sigma0 : ℝ} (he : 0 < eps) (h0 : 0 < sigma0)
    {q : St n mc m} (h : Reach la eps sigma0 q) (s y : RVec ℝ n)
    (hl : (q.S.zip q.Y).getLast? = some (s, y)) : matrixOf q *ᵥ s = y := by
  obtain ⟨-, hp, hs⟩ := h.mem he
  obtain ⟨ps, hps⟩ := List.getLast?_eq_some_iff.mp hl
  have := bfgs_secant (hs h0) ps (s, y) (by rw [← hps]; exact hp)
  rw [← hps] at this
  exact this

theorem queries_ready {la : Lapack} {eps : ℝ} (qs : List (Op n mc m)) (hq : ∀ o ∈ qs, IsQuery o)
    {q q' : St n mc m} {ps : List (Pair n)} {dx : RVec ℝ n} (h : Ready q ps dx)
    (hr : run la eps q qs = some q') : Ready q' ps dx ∧ q'.sigma = q.sigma := by
  induction qs generalizing q with
  | nil =>
    obtain rfl : q = q' := by simpa [run] using hr
    exact ⟨h, rfl⟩
  | cons o qs ih =>
    rw [run, List.foldlM_cons] at hr
    obtain ⟨q1, e1, e2⟩ := Option.bind_eq_some_iff.mp hr
    have hq1 : Ready q1 ps dx ∧ q1.sigma = q.sigma := by
      obtain ⟨q2, e3, r, -, hσ⟩ := refresh_ready h
      have : q1 = q2 := by
        cases o with
        | update c => exact (hq (.update c) (by simp)).elim
        | diag d => exact (hq (.diag d) (by simp)).elim
        | solve rhs =>
          simp only [step, Option.map_eq_some_iff] at e1
          obtain ⟨⟨q3, x⟩, e4, rfl⟩ := e1
          have := solve_refresh e4
          rw [e3] at this; simpa using this.symm
        | inverse k beta W alpha X =>
          simp only [step, Option.map_eq_some_iff] at e1
          obtain ⟨⟨q3, x⟩, e4, rfl⟩ := e1
          have := inverse_refresh e4
          rw [e3] at this; simpa using this.symm
      rw [this]; exact ⟨r, hσ⟩
    obtain ⟨r, hσ⟩ := ih (fun o ho => hq o (by simp [ho])) hq1.1 e2
    exact ⟨r, hσ.trans hq1.2⟩

/-- **C44, solves.** In every reachable state, after the barrier diagonal is set and any number of
solves and inverse products, a solve returns the solution of the system with the BFGS matrix plus
the diagonal. -/
theorem C44_solve {la : Lapack} (hla : LapackExact la) {eps sigma0 : ℝ} (he : 0 < eps)
    (h0 : 0 < sigma0) {q q2 q3 : St n mc m} (h : Reach la eps sigma0 q) (dx : RVec ℝ n)
    (hdx : ∀ i, 0 ≤ dx i) (qs : List (Op n mc m)) (hq : ∀ o ∈ qs, IsQuery o)
    (hr : run la eps (updateLogBarrierDiagonal q dx) qs = some q2) (rhs x : RVec ℝ n)
    (hx : solve la q2 rhs = some (q3, x)) :
    (matrixOf q + diagonal dx) *ᵥ x = rhs := by
  obtain ⟨hm, hp, hs⟩ := h.mem he
  obtain ⟨r, hσ⟩ := queries_ready qs hq (ready_diag hm dx) hr
  have hσ' : q2.sigma = q.sigma := hσ
  have := solve_ok hla r (by rw [hσ']; exact hs h0) hp (fun t => by
    rw [hσ']; linarith [hs h0, hdx t]) hx
  rw [hσ'] at this
  exact this

/-- **C44, solves complete.** With a factorisation that succeeds on nonsingular matrices, no solve or
inverse product aborts: the middle matrix is nonsingular in every reachable state. -/
theorem C44_solve_total {la : Lapack} (hla : LapackTotal la) {eps sigma0 : ℝ} (he : 0 < eps)
    (h0 : 0 < sigma0) {q : St n mc m} (h : Reach la eps sigma0 q) (dx : RVec ℝ n)
    (hdx : ∀ i, 0 ≤ dx i) (qs : List (Op n mc m)) (hq : ∀ o ∈ qs, IsQuery o) :
    ∃ q2, run la eps (updateLogBarrierDiagonal q dx) qs = some q2 := by
  obtain ⟨hm, hp, hs⟩ := h.mem he
  suffices H : ∀ (qs : List (Op n mc m)), (∀ o ∈ qs, IsQuery o) → ∀ q1 : St n mc m,
      Ready q1 (q.S.zip q.Y) dx → q1.sigma = q.sigma → ∃ q2, run la eps q1 qs = some q2 from
    H qs hq _ (ready_diag hm dx) rfl
  intro qs
  induction qs with
  | nil => intro _ q1 _ _; exact ⟨q1, rfl⟩
  | cons o qs ih =>
    intro hq q1 r hσ
    have hs1 : 0 < q1.sigma := by rw [hσ]; exact hs h0
    obtain ⟨q2, e⟩ : ∃ q2, step la eps q1 o = some q2 := by
      cases o with
      | update c => exact (hq (.update c) (by simp)).elim
      | diag d => exact (hq (.diag d) (by simp)).elim
      | solve rhs =>
        obtain ⟨q2, x, e⟩ := solve_isSome hla r hs1 hp hdx rhs
        exact ⟨q2, by simp [step, e]⟩
      | inverse k beta W alpha X =>
        obtain ⟨q2, x, e⟩ := inverse_isSome (k := k) hla r hs1 hp hdx beta alpha W X
        exact ⟨q2, by simp [step, e]⟩
    have hr1 : run la eps q1 [o] = some q2 := by
      rw [run, List.foldlM_cons, e]; rfl
    obtain ⟨r2, hσ2⟩ := queries_ready [o] (fun o' ho => hq o' (by
      rw [List.mem_singleton] at ho; simp [ho])) r hr1
    obtain ⟨q3, e3⟩ := ih (fun o ho => hq o (by simp [ho])) q2 r2 (hσ2.trans hσ)
    refine ⟨q3, ?_⟩
    rw [run, List.foldlM_cons, e]
    exact e3

/-- **C44, the constraint matrix.** The product computed for the rows `X` is
`beta W + alpha X (B + diag dx)⁻¹ Xᵀ` with the same matrix as the solves (`W` is read from its upper
triangle). -/
theorem C44_inverse_product {la : Lapack} (hla : LapackExact la) {eps sigma0 : ℝ} (he : 0 < eps)
    (h0 : 0 < sigma0) {q q2 q3 : St n mc m} (h : Reach la eps sigma0 q) (dx : RVec ℝ n)
    (hdx : ∀ i, 0 ≤ dx i) (qs : List (Op n mc m)) (hq : ∀ o ∈ qs, IsQuery o)
    (hr : run la eps (updateLogBarrierDiagonal q dx) qs = some q2) (beta alpha : ℝ) (W W' : NMat ℝ)
    (X : ℕ → RVec ℝ n) (hx : symMatTimesInverse la q2 k beta W alpha X = some (q3, W')) :
    ∀ i < k, ∀ j < k, W' i j = beta * W (min i j) (max i j)
      + alpha * (X i ⬝ᵥ (matrixOf q + diagonal dx)⁻¹ *ᵥ X j) := by
  obtain ⟨hm, hp, hs⟩ := h.mem he
  obtain ⟨r, hσ⟩ := queries_ready qs hq (ready_diag hm dx) hr
  have hσ' : q2.sigma = q.sigma := hσ
  refine inverse_ok hla r (by rw [hσ']; exact hs h0) hp (fun t => by
    rw [hσ']; linarith [hs h0, hdx t]) hx _ ?_
  rw [hσ']
  exact nonsing_inv_mul _ (spd_det (spd_add_diag (bfgs_spd (hs h0) _ hp) hdx))
where
  spd_det {B : Matrix (Fin n) (Fin n) ℝ} (h : Spd B) : IsUnit B.det := by
    rw [isUnit_iff_ne_zero]
    intro h0
    obtain ⟨v, hv, hv0⟩ := exists_mulVec_eq_zero_iff.mpr h0
    exact hv (spd_inj h hv0)

/-- **C44, products (partial).** Products use the same matrix when no stored curvature lies below
machine epsilon. Missing: the code replaces smaller curvatures, see `C44_product_false`. -/
theorem C44_product_partial {la : Lapack} {eps sigma0 : ℝ} (he : 0 < eps) (h0 : 0 < sigma0)
    {lMax : ℕ} {strat : Strategy} {junk : St n mc m} {ops : List (Op n mc m)} {q : St n mc m}
    (hr : run la eps (fresh lMax strat sigma0 junk) ops = some q) (hne : points ops ≠ [])
    (hc : ∀ p ∈ q.S.zip q.Y, eps ≤ ∑ i, p.1 i * p.2 i) (beta alpha : ℝ) (x y : RVec ℝ n) :
    timesVecCmn eps q beta y alpha x false
      = some (fun i => beta * y i + alpha * (matrixOf q *ᵥ x) i) ∧
    timesVecCmn eps q beta y alpha x true
      = some (fun i => beta * y i + alpha * ((matrixOf q + diagonal q.dx) *ᵥ x) i) := by
  obtain ⟨hm, hp, hs⟩ := Reach.mem he ⟨lMax, strat, junk, ops, hr⟩
  have hl := (C29_memory la he _ _ _ _ _ _ hr).2.2.2.1 hne
  have hz : (q.S.zip q.Y).length = q.S.length := by
    rw [List.length_zip, ← (C29_memory la he _ _ _ _ _ _ hr).2.1, min_self]
  have ht := times_ok hm (by rw [hl, hz]) (hs h0) hp hc beta alpha x y
  constructor
  · rw [ht false]; simp only [Bool.false_eq_true, if_false, add_zero]; rfl
  · rw [ht true]; simp only [if_true]; rfl

/-- The machine epsilon of `double`. -/
noncomputable def epsD : ℝ := 1 / 2 ^ 52

theorem exPt_accept_small : Accept epsD (sOf (exPt 0) (exPt (1 / 2 ^ 40)))
    (yOf (exPt 0) (exPt (1 / 2 ^ 40))) := by
  rw [(exPt_pair _ _).1, (exPt_pair _ _).2]
  refine ⟨⟨0, ?_⟩, ?_⟩
  · rw [abs_of_pos (by norm_num), epsD]; norm_num
  · rw [norm2_one, norm2_one, abs_of_pos (by norm_num), abs_of_pos (by norm_num), epsD,
      show (1 / 2 ^ 52 : ℝ) = (1 / 2 ^ 26) ^ 2 by norm_num, Real.sqrt_sq (by norm_num)]
    norm_num

/-- **C44, products: the code differs.** For `f(x) = x²` and a step of `2⁻⁴⁰` the pair is accepted,
the matrix inverted by solves is the exact Hessian `2`, the product multiplies by `2⁻²⁶`. -/
theorem C44_product_false (la : Lapack) (junk : St 1 0 0) : ∃ q,
    run la epsD (fresh 6 .sty 1 junk) [.update (exPt 0), .update (exPt (1 / 2 ^ 40))] = some q ∧
    matrixOf q *ᵥ (fun _ => 1) = (fun _ => 2) ∧
    timesVecCmn epsD q 0 (fun _ => 0) 1 (fun _ => 1) false = some (fun _ => 1 / 2 ^ 26) := by
  have he : 0 < epsD := by rw [epsD]; norm_num
  have hs := run_updates (la := la) he [exPt 0, exPt (1 / 2 ^ 40)] (inv_fresh epsD 6 .sty 1 junk)
  obtain ⟨q, hq⟩ := Option.isSome_iff_exists.mp hs
  have hp : points ([exPt 0, exPt (1 / 2 ^ 40)].map Op.update) = [exPt 0, exPt (1 / 2 ^ 40)] := rfl
  have hacc : acceptedAll epsD [exPt 0, exPt (1 / 2 ^ 40)]
      = [(fun _ => 1 / 2 ^ 40, fun _ => 1 / 2 ^ 39)] := by
    rw [acceptedAll, accepted, accepted, if_pos exPt_accept_small, (exPt_pair _ _).1,
      (exPt_pair _ _).2]
    norm_num
  have hmem := (C29_memory la he _ _ _ _ _ _ hq).1
  rw [hp, hacc] at hmem
  have hz : q.S.zip q.Y = [(fun _ => 1 / 2 ^ 40, fun _ => 1 / 2 ^ 39)] := hmem
  have hσ : q.sigma = 2 := by
    rw [(C29_sigma la he _ _ _ _ _ _ hq).1, hp, hacc]
    norm_num [sigmaSpec, sigmaPair]
  have hl := (C29_memory la he _ _ _ _ _ _ hq).2.2.2.1 (by rw [hp]; simp)
  refine ⟨q, hq, ?_, ?_⟩
  · have := C44_secant he one_pos ⟨_, _, _, _, hq⟩ _ _ (by rw [hz]; rfl)
    have e : (fun _ : Fin 1 => (1 : ℝ)) = (2 ^ 40 : ℝ) • (fun _ => 1 / 2 ^ 40) := by
      funext i; norm_num
    rw [e, mulVec_smul, this]
    funext i; norm_num
  · unfold timesVecCmn
    rw [if_pos hl, hz, hσ]
    have d : ∀ a b : ℝ, dot (fun _ : Fin 1 => a) (fun _ => b) = a * b := by
      intro a b; rw [dot_eq']; simp
    have sc : ∀ a c : ℝ, scale (fun _ : Fin 1 => a) c = fun _ => c * a := by
      intro a c; funext i; rw [scale_apply]
    simp only [Option.some.injEq, List.foldl_cons, List.foldl_nil, abStep, List.nil_append, d, sc,
      Bool.false_eq_true, if_false]
    funext i
    have h1 : ((1 : ℝ) / 2 ^ 39 * (1 / 2 ^ 40) < epsD) := by rw [epsD]; norm_num
    have r1 : Real.sqrt epsD = 1 / 2 ^ 26 := by
      rw [epsD, show (1 / 2 ^ 52 : ℝ) = (1 / 2 ^ 26) ^ 2 by norm_num, Real.sqrt_sq (by norm_num)]
    have r2 : (1 / Real.sqrt (2 * (1 / 2 ^ 40) * (1 / 2 ^ 40)))
        * (1 / Real.sqrt (2 * (1 / 2 ^ 40) * (1 / 2 ^ 40))) = 2 ^ 79 := by
      rw [one_div_mul_one_div, Real.mul_self_sqrt (by norm_num)]; norm_num
    rw [if_pos h1, r1]
    unfold axpy
    linear_combination (-(4 : ℝ) / 2 ^ 80) * r2

/-! ## The quasi-Newton linear system -/

/-- Index of the stacked constraints. -/
def enc : Fin mc ⊕ Fin m → ℕ
  | .inl i => i
  | .inr i => mc + i

/-- Rows of the stacked Jacobian by index. -/
noncomputable def rowsOf (J : Matrix (Fin mc ⊕ Fin m) (Fin n) ℝ) (i : ℕ) : RVec ℝ n :=
  if h : i < mc then J (.inl ⟨i, h⟩) else if h : i - mc < m then J (.inr ⟨i - mc, h⟩) else 0

theorem rowsOf_enc (J : Matrix (Fin mc ⊕ Fin m) (Fin n) ℝ) (a : Fin mc ⊕ Fin m) :
    rowsOf J (enc a) = J a := by
  rcases a with a | a
  · simp [rowsOf, enc]
  · simp [rowsOf, enc]

/-- `HessLowRank->solve(rx, dx)` as used by `solveCompressed`, hiopKKTLinSys.cpp:1146, 1180. -/
noncomputable def hsolveOf (la : Lapack) (q : St n mc m) (r : RVec ℝ n) : RVec ℝ n :=
  ((solve la q r).map Prod.snd).getD 0

/-- `symMatTimesInverseTimesMatTrans(0.0, *N, 1.0, J)`, hiopKKTLinSys.cpp:1132. -/
noncomputable def nmatOf (la : Lapack) (q : St n mc m) (J : Matrix (Fin mc ⊕ Fin m) (Fin n) ℝ) :
    Matrix (Fin mc ⊕ Fin m) (Fin mc ⊕ Fin m) ℝ :=
  Matrix.of fun a b => ((symMatTimesInverse la q (mc + m) 0 (fun _ _ => 0) 1 (rowsOf J)).map
    fun p => p.2 (enc a) (enc b)).getD 0

theorem spd_det {ι : Type*} [Fintype ι] [DecidableEq ι] {B : Matrix ι ι ℝ}
    (h : ∀ x, x ≠ 0 → 0 < x ⬝ᵥ B *ᵥ x) : IsUnit B.det := by
  rw [isUnit_iff_ne_zero]
  intro h0
  obtain ⟨v, hv, hv0⟩ := exists_mulVec_eq_zero_iff.mpr h0
  have := h v hv
  rw [hv0, dotProduct_zero] at this
  exact lt_irrefl _ this

/-- The constraint matrix is positive definite when the equality Jacobian has full row rank. -/
theorem nmat_posdef {A : Matrix (Fin n) (Fin n) ℝ} (hA : Spd A)
    (Jc : Matrix (Fin mc) (Fin n) ℝ) (Jd : Matrix (Fin m) (Fin n) ℝ) (ddInv : RVec ℝ m)
    (hd : ∀ i, 0 < ddInv i) (hr : ∀ u : Fin mc → ℝ, Jcᵀ *ᵥ u = 0 → u = 0)
    (w : Fin mc ⊕ Fin m → ℝ) (hw : w ≠ 0) :
    0 < w ⬝ᵥ (Matrix.of (Sum.elim Jc Jd) * A⁻¹ * (Matrix.of (Sum.elim Jc Jd))ᵀ
      + diagonal (Sum.elim (fun _ => 0) ddInv)) *ᵥ w := by
  set J : Matrix (Fin mc ⊕ Fin m) (Fin n) ℝ := Matrix.of (Sum.elim Jc Jd) with hJ
  have hdet := spd_det hA.2
  set v := Jᵀ *ᵥ w with hv
  set x := A⁻¹ *ᵥ v with hx
  have hAx : A *ᵥ x = v := by rw [hx, mulVec_mulVec, mul_nonsing_inv _ hdet, one_mulVec]
  have e : w ⬝ᵥ (J * A⁻¹ * Jᵀ + diagonal (Sum.elim (fun _ => 0) ddInv)) *ᵥ w
      = x ⬝ᵥ A *ᵥ x + ∑ i, ddInv i * w (.inr i) ^ 2 := by
    rw [add_mulVec, dotProduct_add, ← mulVec_mulVec, ← mulVec_mulVec, ← hv, ← hx, hAx,
      dotProduct_mulVec, ← mulVec_transpose, ← hv, dotProduct_comm v x]
    congr 1
    rw [dotProduct, Fintype.sum_sum_type]
    simp only [mulVec_diagonal, Sum.elim_inl, Sum.elim_inr, zero_mul, mul_zero,
      Finset.sum_const_zero, zero_add]
    exact Finset.sum_congr rfl fun i _ => by ring
  rw [e]
  have h2 : 0 ≤ ∑ i, ddInv i * w (.inr i) ^ 2 :=
    Finset.sum_nonneg fun i _ => mul_nonneg (hd i).le (sq_nonneg _)
  by_cases hx0 : x = 0
  · have hv0 : v = 0 := by rw [← hAx, hx0, mulVec_zero]
    rw [hx0, mulVec_zero, dotProduct_zero, zero_add]
    refine lt_of_le_of_ne h2 fun h0 => hw ?_
    have hz : ∀ i, w (.inr i) = 0 := by
      intro i
      have := (Finset.sum_eq_zero_iff_of_nonneg (fun i _ =>
        mul_nonneg (hd i).le (sq_nonneg (w (.inr i))))).mp h0.symm i (Finset.mem_univ i)
      rcases mul_eq_zero.mp this with h | h
      · exact absurd h (hd i).ne'
      · exact pow_eq_zero_iff (by norm_num) |>.mp h
    have hu : Jcᵀ *ᵥ (fun i => w (.inl i)) = 0 := by
      funext j
      have := congrFun hv0 j
      rw [hv, mulVec, dotProduct, Fintype.sum_sum_type] at this
      simp only [hJ, transpose_apply, of_apply, hz, mul_zero,
        Finset.sum_const_zero, add_zero] at this
      exact this
    have := hr _ hu
    funext a
    rcases a with a | a
    · exact congrFun this a
    · exact hz a
  · exact add_pos_of_pos_of_nonneg (hA.2 x hx0) h2

/-- **C44 into C18.** With exact dense solvers, nonnegative barrier diagonal, positive `ddInv` and an
equality Jacobian of full row rank, the quasi-Newton linear solver returns, in every reachable
state, the solution of the (x, yc, yd) system with the BFGS matrix. -/
theorem C44_kkt {la : Lapack} (hla : LapackExact la) (hlt : LapackTotal la) {eps sigma0 : ℝ}
    (he : 0 < eps) (h0 : 0 < sigma0) {q : St n mc m} (h : Reach la eps sigma0 q) (gx : RVec ℝ n)
    (hgx : ∀ i, 0 ≤ gx i) (M : Mats ℝ n mc m) (hH : M.H = matrixOf q) (ddInv : RVec ℝ m)
    (hdd : ∀ i, 0 < ddInv i) (hrank : ∀ u : Fin mc → ℝ, M.Jcᵀ *ᵥ u = 0 → u = 0)
    (lin : Matrix (Fin mc ⊕ Fin m) (Fin mc ⊕ Fin m) ℝ → (Fin mc ⊕ Fin m → ℝ) →
      (Fin mc ⊕ Fin m → ℝ))
    (hl : ∀ (N : Matrix (Fin mc ⊕ Fin m) (Fin mc ⊕ Fin m) ℝ) r, IsUnit N.det →
      N.mulVec (lin N r) = r) :
    Solves3 M gx (fun _ => 0) ddInv
      (lowRankSolve M ddInv (hsolveOf la (updateLogBarrierDiagonal q gx))
        (nmatOf la (updateLogBarrierDiagonal q gx)) lin) := by
  obtain ⟨hm, hp, hs⟩ := h.mem he
  have hA : Spd (matrixOf q + diagonal gx) := spd_add_diag (bfgs_spd (hs h0) _ hp) hgx
  have hdet := spd_det hA.2
  refine C18_low_rank M gx ddInv (matrixOf q + diagonal gx)⁻¹ _ _ lin ?_ (fun r => ?_)
    (fun J => ?_) hl (spd_det fun w hw => ?_)
  · rw [hH, mul_nonsing_inv _ hdet]
  · obtain ⟨q2, x, e⟩ := solve_isSome hlt (ready_diag hm gx) (hs h0) hp hgx r
    have hx := C44_solve hla he h0 h gx hgx [] (by simp) rfl r x e
    rw [hsolveOf, e]
    simp only [Option.map_some, Option.getD_some]
    rw [← hx, mulVec_mulVec, nonsing_inv_mul _ hdet, one_mulVec]
  · obtain ⟨q2, W, e⟩ := inverse_isSome (k := mc + m) hlt (ready_diag hm gx) (hs h0) hp hgx 0 1
      (fun _ _ => 0) (rowsOf J)
    have hx := C44_inverse_product hla he h0 h gx hgx [] (by simp) rfl 0 1 _ W (rowsOf J) e
    have henc : ∀ a : Fin mc ⊕ Fin m, enc a < mc + m := by
      rintro (a | a) <;> simp only [enc] <;> omega
    ext a b
    simp only [nmatOf, e, of_apply, Option.map_some, Option.getD_some]
    rw [hx _ (henc a) _ (henc b), rowsOf_enc, rowsOf_enc, zero_mul, zero_add, one_mul,
      Matrix.mul_assoc]
    rfl
  · exact nmat_posdef hA M.Jc M.Jd ddInv hdd hrank w hw

/-! ## Instances -/

open Classical in
/-- A dense solver meeting both hypotheses. -/
noncomputable def exLapack : Lapack := fun N W rhs =>
  if h : ∃ z, ∀ r < N, symApply N W z r = rhs r then some h.choose else none

theorem exLapack_exact : LapackExact exLapack := by
  intro N W rhs z h
  unfold exLapack at h
  split at h
  · rename_i hz
    simp only [Option.some.injEq] at h
    subst h; exact hz.choose_spec
  · simp at h

theorem exLapack_total : LapackTotal exLapack := by
  intro N W rhs hN
  unfold exLapack
  have key : ∃ z, ∀ r < N, symApply N W z r = rhs r := by
    set A : Matrix (Fin N) (Fin N) ℝ := Matrix.of fun r c => W (min r.1 c.1) (max r.1 c.1) with hA
    have ext : ∀ (v : Fin N → ℝ) (r : Fin N),
        symApply N W (fun i => if h : i < N then v ⟨i, h⟩ else 0) r.1 = (A *ᵥ v) r := by
      intro v r
      rw [symApply, Finset.sum_range]
      refine Finset.sum_congr rfl fun c _ => ?_
      rw [dif_pos c.2]; rfl
    have hdet : IsUnit A.det := by
      rw [isUnit_iff_ne_zero]
      intro h0
      obtain ⟨v, hv, hv0⟩ := exists_mulVec_eq_zero_iff.mpr h0
      refine hv (funext fun i => ?_)
      have := hN (fun i => if h : i < N then v ⟨i, h⟩ else 0) (fun r hr => by
        have := ext v ⟨r, hr⟩
        rw [hv0] at this; exact this) i.1 i.2
      simpa using this
    refine ⟨fun i => if h : i < N then (A⁻¹ *ᵥ fun r => rhs r.1) ⟨i, h⟩ else 0, fun r hr => ?_⟩
    rw [ext (A⁻¹ *ᵥ fun r => rhs r.1) ⟨r, hr⟩, mulVec_mulVec, mul_nonsing_inv _ hdet, one_mulVec]
  rw [dif_pos key]; rfl

/-- The state after two accepted pairs with memory 1, then a diagonal of 1, an inverse product and a
solve: `(2 + 1) x = 6`. -/
example (junk : St 1 0 0) : ∃ q q2 q3 : St 1 0 0,
    Reach exLapack (1 / 10000) 1 q ∧
    run exLapack (1 / 10000) (updateLogBarrierDiagonal q fun _ => 1)
      [.inverse 1 0 (fun _ _ => 0) 1 (fun _ _ => 1)] = some q2 ∧
    solve exLapack q2 (fun _ => 6) = some (q3, fun _ => 2) := by
  have he : (0 : ℝ) < 1 / 10000 := by norm_num
  have hs := run_updates (la := exLapack) he [exPt 0, exPt 1, exPt 3]
    (inv_fresh (1 / 10000) 1 .sty 1 junk)
  obtain ⟨q, hq⟩ := Option.isSome_iff_exists.mp hs
  have hp : points ([exPt 0, exPt 1, exPt 3].map Op.update) = [exPt 0, exPt 1, exPt 3] := rfl
  have hacc : acceptedAll (1 / 10000) [exPt 0, exPt 1, exPt 3]
      = [(fun _ => 1, fun _ => 2), (fun _ => 2, fun _ => 4)] := by
    rw [acceptedAll, accepted, accepted, accepted, if_pos (exPt_accept (by norm_num)),
      if_pos (exPt_accept (by norm_num)), (exPt_pair _ _).1, (exPt_pair _ _).1, (exPt_pair _ _).2,
      (exPt_pair _ _).2]
    norm_num
  have hR : Reach exLapack (1 / 10000) 1 q := ⟨_, _, _, _, hq⟩
  have hz : q.S.zip q.Y = [(fun _ => 2, fun _ => 4)] := by
    rw [(C29_memory _ he _ _ _ _ _ _ hq).1, hp, hacc]; rfl
  have hdx : ∀ i : Fin 1, (0 : ℝ) ≤ (fun _ => 1 : RVec ℝ 1) i := fun _ => zero_le_one
  set o : Op 1 0 0 := .inverse 1 0 (fun _ _ => 0) 1 (fun _ _ => 1) with ho
  have hqo : ∀ o' ∈ [o], IsQuery o' := by
    intro o' h; rw [List.mem_singleton] at h; rw [h]; trivial
  obtain ⟨q2, h2⟩ := C44_solve_total exLapack_total he one_pos hR (fun _ => 1) hdx [o] hqo
  have hqo2 : ∀ o' ∈ [o, Op.solve fun _ => 6], IsQuery o' := by
    intro o' h
    rcases List.mem_cons.mp h with h | h
    · rw [h]; trivial
    · rw [List.mem_singleton] at h; rw [h]; trivial
  obtain ⟨q4, h4⟩ := C44_solve_total exLapack_total he one_pos hR (fun _ => 1) hdx
    [o, .solve fun _ => 6] hqo2
  have h4' : (run exLapack (1 / 10000) (updateLogBarrierDiagonal q fun _ => 1) [o]).bind
      (fun q => run exLapack (1 / 10000) q [.solve fun _ => 6]) = some q4 := by
    rw [← h4]
    simp only [run, List.foldlM_cons, List.foldlM_nil, Option.bind_eq_bind, Option.bind_assoc,
      Option.pure_def, Option.bind_some]
  rw [h2, Option.bind_some, run, List.foldlM_cons] at h4'
  obtain ⟨q5, h5, -⟩ := Option.bind_eq_some_iff.mp h4'
  simp only [step, Option.map_eq_some_iff] at h5
  obtain ⟨⟨q3, x⟩, h5, -⟩ := h5
  have hx := C44_solve exLapack_exact he one_pos hR (fun _ => 1) hdx [o] hqo h2 _ _ h5
  have hsec := C44_secant he one_pos hR _ _ (by rw [hz]; rfl)
  have hm : matrixOf q *ᵥ x = fun _ => 2 * x 0 := by
    have e : x = (x 0 / 2) • (fun _ => (2 : ℝ)) := by
      funext i; rw [Fin.fin_one_eq_zero i]; simp
    conv_lhs => rw [e, mulVec_smul, hsec]
    funext i; simp; ring
  rw [add_mulVec, hm] at hx
  have h0 := congrFun hx 0
  rw [Pi.add_apply, mulVec_diagonal] at h0
  have hx2 : x = fun _ => 2 := by
    funext i; rw [Fin.fin_one_eq_zero i]; linarith
  exact ⟨q, q2, q3, hR, h2, by rw [h5, hx2]⟩

end Hiop.QN
