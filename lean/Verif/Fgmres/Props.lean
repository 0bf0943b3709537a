import Verif.Fgmres.Cycle
import Mathlib.LinearAlgebra.Dimension.Finite
import Mathlib.LinearAlgebra.Dimension.Constructions
import Mathlib.Tactic.NormNum
import Mathlib.Tactic.NormNum.RealSqrt
import Mathlib.LinearAlgebra.Matrix.Notation

/-!
# C76: iterative refinement never makes a solution worse

Statements about `fgmres` in terms of the matrix, the right-hand side and the vectors before and after.
`resid c b x` is `b - A x` and `norm2` the euclidean norm.
-/

namespace Hiop.Fgmres

variable {n : ℕ}

theorem norm2_nonneg (v : Vec n) : 0 ≤ norm2 v := Real.sqrt_nonneg _

theorem norm2_sq (v : Vec n) : norm2 v * norm2 v = v ⬝ᵥ v := Real.mul_self_sqrt (self_nonneg v)

theorem body_tiny (c : Cfg n) (a a1 : Cyc n) (h1 : body c a = .ok a1) (h2 : a1.tiny = false) : a.tiny = false := by
  unfold body at h1
  simp only at h1
  split at h1
  · cases h1
  · cases h1
    simp only [Bool.or_eq_false_iff] at h2
    exact h2.1

theorem inner_tiny (c : Cfg n) (tr : ℝ) (fuel : ℕ) (a b : Cyc n) (h : inner c tr fuel a = .ok b)
    (hb : b.tiny = false) : a.tiny = false := by
  induction fuel generalizing a with
  | zero => unfold inner at h; cases h; exact hb
  | succ fuel ih =>
    unfold inner at h
    split at h
    · cases h
    · rename_i a1 ha
      split at h
      · cases h; exact body_tiny c _ _ ha hb
      · exact body_tiny c _ _ ha (ih _ h)

theorem outer_tiny (c : Cfg n) (b : Vec n) (fuel : ℕ) (o : Ost n) (res : Res n) (h : outer c b fuel o = .ok res)
    (ht : res.tiny = false) : o.tiny = false := by
  induction fuel generalizing o with
  | zero => unfold outer at h; cases h
  | succ fuel ih =>
    unfold outer at h
    simp only at h
    generalize (if o.it = 0 then relTol c o.rnorm else o.tolrel) = tr at h
    split at h
    · cases h; exact ht
    · split at h
      · cases h
      · rename_i s1 hs1
        split at h
        · cases h
        · split at h
          · cases h; exact inner_tiny c _ _ _ _ hs1 ht
          · exact inner_tiny c _ _ _ _ hs1 (ih _ h)

theorem inner_spec (c : Cfg n) (r : Vec n) (it0 : ℕ) (tolrel : ℝ) (ht0 : 0 ≤ tolrel) (fuel : ℕ) (s s' : Cyc n)
    (hf : 0 < fuel) (hfu : fuel = c.maxit - s.it) (hJ : J c r it0 s.m s.p) (hit : s.it = it0 + s.p)
    (h : inner c tolrel fuel s = .ok s') (ht : s'.tiny = false) :
    s.p < s'.p ∧ s'.it = it0 + s'.p ∧ s'.it ≤ c.maxit ∧ s.tiny = false ∧ s'.rnorm = |s'.m.rs s'.p| ∧
    (s'.p < c.restart → s'.rnorm ≤ tolrel ∨ s'.it = c.maxit) ∧ (s'.p ≤ c.restart ∨ s'.p = s.p + 1) ∧
    (∃ u w, F c r it0 s'.m s'.p u w) ∧ (c.dbg = true → J c r it0 s'.m s'.p) := by
  induction fuel generalizing s with
  | zero => omega
  | succ fuel ih =>
    unfold inner at h
    split at h
    · cases h
    · rename_i s1 hb
      have fin : ∀ s1, body c s = .ok s1 → s1.tiny = false → s1.p = s.p + 1 ∧ s1.it = s.it + 1 ∧ s.tiny = false ∧
          s1.rnorm = |s1.m.rs s1.p| ∧ (J c r it0 s1.m s1.p ∨ s1.rnorm = 0 ∧ c.dbg = false ∧
            ∃ u w, F c r it0 s1.m s1.p u w) :=
        fun s1 hb ht => body_J c r it0 s s1 hJ hit hb ht
      split at h
      · rename_i hex
        cases h
        obtain ⟨b1, b2, b3, b4, b5⟩ := fin _ hb ht
        refine ⟨by omega, by omega, by omega, b3, b4, fun hp => ?_, Or.inr b1, ?_, fun hd => ?_⟩
        · rcases hex with h | h | h
          · omega
          · exact Or.inl h
          · exact Or.inr (by omega)
        · rcases b5 with b5 | ⟨_, _, b5⟩
          · exact ⟨_, _, b5.toF⟩
          · exact b5
        · rcases b5 with b5 | ⟨_, b5, _⟩
          · exact b5
          · rw [hd] at b5; simp at b5
      · rename_i hex
        push Not at hex
        obtain ⟨x1, x2, x3⟩ := hex
        have ht1 : s1.tiny = false := by
          exact inner_tiny c _ _ _ _ h ht
        obtain ⟨b1, b2, b3, b4, b5⟩ := fin s1 hb ht1
        have hJ1 : J c r it0 s1.m s1.p := by
          rcases b5 with b5 | ⟨b5, _⟩
          · exact b5
          · rw [b5] at x2; linarith
        obtain ⟨i1, i2, i3, i4, i5, i6, i7, i8, i9⟩ := ih s1 (by omega) (by omega) hJ1 (by omega) h
        exact ⟨by omega, i2, i3, b3, i5, i6, by omega, i8, i9⟩

/-- The facts about a cycle that need no assumption about the guard. -/
theorem inner_any (c : Cfg n) (tolrel : ℝ) (fuel : ℕ) (s s' : Cyc n) (hfu : fuel ≤ c.maxit - s.it)
    (h : inner c tolrel fuel s = .ok s') :
    s.it ≤ s'.it ∧ s'.it - s.it = s'.p - s.p ∧ s.p ≤ s'.p ∧ (0 < fuel → s.p < s'.p) ∧ (s'.it ≤ c.maxit ∨ s'.it = s.it) := by
  induction fuel generalizing s with
  | zero => unfold inner at h; cases h; simp
  | succ fuel ih =>
    unfold inner at h
    have bm : ∀ a1, body c s = .ok a1 → a1.p = s.p + 1 ∧ a1.it = s.it + 1 := by
      intro a1 h1
      unfold body at h1
      simp only at h1
      split at h1
      · cases h1
      · cases h1; exact ⟨rfl, rfl⟩
    split at h
    · cases h
    · rename_i a1 ha
      obtain ⟨q1, q2⟩ := bm a1 ha
      split at h
      · cases h; omega
      · have := ih a1 (by omega) h; omega

theorem exit_eps (c : Cfg n) (hc : c.cond ≤ 2) {bn rn : ℝ} (h : ¬ exitCond c bn rn) (hr : 0 ≤ rn) : EPSILON < rn := by
  unfold exitCond at h
  push Not at h
  obtain ⟨h0, h1, h2⟩ := h
  rw [sub_zero, abs_of_nonneg hr] at h0 h1 h2
  have : c.cond = 0 ∨ c.cond = 1 ∨ c.cond = 2 := by omega
  rcases this with e | e | e
  · exact h0 e
  · exact (h1 e).1
  · exact (h2 e).1

theorem start_J (c : Cfg n) (m : Mem n) (r : Vec n) (it0 : ℕ) (hV : m.V 0 = r) (hr : norm2 r ≠ 0) :
    J c r it0 { m with V := set1 m.V 0 ((1 / norm2 r) • m.V 0), rs := set1 m.rs 0 (norm2 r) } 0 := by
  refine ⟨⟨fun _ h => absurd h (by omega), by simp [hV], fun _ h => absurd h (by omega),
    fun _ h => absurd h (by omega)⟩, fun j hj k hk => ?_, fun _ h => absurd h (by omega),
    fun _ h => absurd h (by omega), fun _ h => absurd h (by omega), ?_, fun _ _ h => absurd h (by omega)⟩
  · have : j = 0 := by omega
    subst this
    have : k = 0 := by omega
    subst this
    simp only [set1_same, if_true, hV, dotProduct_smul, smul_dotProduct, smul_eq_mul, ← norm2_sq]
    field_simp
  · simp only [Finset.range_zero, Finset.sum_empty, zero_add, P, set1_same, hV, smul_smul]
    rw [mul_one_div_cancel hr, one_smul]

theorem resid_add (c : Cfg n) (b x y : Vec n) : resid c b (x + y) = resid c b x - c.A.mulVec y := by
  unfold resid; rw [Matrix.mulVec_add]; abel

/-- The last cycle of a run that started its iterations with the vector `x₀`. -/
structure LastCycle (c : Cfg n) (b x₀ x : Vec n) (it0 k : ℕ) (V Z : ℕ → Vec n) : Prop where
  kry : Kry c (resid c b x₀) it0 V Z k
  dbg : c.dbg = true → ON V (k + 1)
  comb : ∃ y : ℕ → ℝ, x = x₀ + ∑ j ∈ Finset.range k, y j • Z j
  best : ∀ z : ℕ → ℝ, norm2 (resid c b x) ≤ norm2 (resid c b (x₀ + ∑ j ∈ Finset.range k, z j • Z j))

theorem outer_spec (c : Cfg n) (b : Vec n) (hc : c.cond ≤ 2) (htol : 0 ≤ c.tol) (fuel : ℕ) (o : Ost n) (res : Res n)
    (hV : o.m.V 0 = resid c b o.x) (hr : o.rnorm = norm2 (resid c b o.x)) (hit : o.it < c.maxit)
    (h0 : o.it ≠ 0 → 0 ≤ o.tolrel) (h : outer c b fuel o = .ok res) (ht : res.tiny = false) :
    norm2 (resid c b res.x) ≤ norm2 (resid c b o.x) ∧
    (norm2 (resid c b res.x) ≤ (if o.it = 0 then relTol c o.rnorm else o.tolrel) ∨
      exitCond c (norm2 b) (norm2 (resid c b res.x)) ∨ res.its = c.maxit) ∧
    (res.iters = res.its ∨ res.iters = 0 ∧ exitCond c (norm2 b) (norm2 (resid c b res.x))) ∧
    (res.its = o.it ∧ res.x = o.x ∨
      ∃ x₀ it0 k V Z, norm2 (resid c b x₀) ≤ norm2 (resid c b o.x) ∧ 0 < k ∧ it0 + k = res.its ∧ o.it ≤ it0 ∧
        (it0 = o.it → x₀ = o.x) ∧ (it0 = o.it ∨ o.it + c.restart ≤ it0) ∧ LastCycle c b x₀ res.x it0 k V Z) := by
  induction fuel generalizing o with
  | zero => unfold outer at h; cases h
  | succ fuel ih =>
    unfold outer at h
    simp only at h
    set tolrel := if o.it = 0 then relTol c o.rnorm else o.tolrel with htr
    have hrn : 0 ≤ o.rnorm := by rw [hr]; exact norm2_nonneg _
    have ht0 : 0 ≤ tolrel := by
      rw [htr]
      split
      · unfold relTol
        split
        · positivity
        · exact mul_nonneg htol hrn
      · exact h0 ‹_›
    split at h
    · rename_i hex
      cases h
      simp only
      rw [hr] at hex
      exact ⟨le_rfl, Or.inr (Or.inl hex), Or.inr ⟨by trivial, hex⟩, Or.inl ⟨by trivial, by trivial⟩⟩
    · rename_i hex
      have hpos : 0 < o.rnorm := lt_trans eps_pos (exit_eps c hc hex hrn)
      split at h
      · cases h
      · rename_i s hs
        rw [hr] at hs
        have key : s.tiny = false → _ := fun hts => inner_spec c (resid c b o.x) o.it tolrel ht0 (c.maxit - o.it) _ s
          (by omega) (by simp only) (start_J c o.m (resid c b o.x) o.it hV (by rw [← hr]; exact hpos.ne'))
          (by simp only; omega) hs hts
        simp only at key
        have fin : s.tiny = false → 0 < s.p ∧ s.it = o.it + s.p ∧ s.it ≤ c.maxit ∧ s.rnorm = |s.m.rs s.p| ∧
            (s.p < c.restart → s.rnorm ≤ tolrel ∨ s.it = c.maxit) ∧ (s.p ≤ c.restart ∨ s.p = 0 + 1) ∧
            (Kry c (resid c b o.x) o.it s.m.V s.m.Z s.p ∧ (c.dbg = true → ON s.m.V (s.p + 1))) ∧
            norm2 (resid c b o.x - c.A.mulVec (∑ k ∈ Finset.range s.p, back s.m.H (s.p - 1) s.m.rs k • s.m.Z k)) =
              |s.m.rs s.p| ∧
            ∀ z : ℕ → ℝ, |s.m.rs s.p| ≤ norm2 (resid c b o.x - c.A.mulVec (∑ k ∈ Finset.range s.p, z k • s.m.Z k)) := by
          intro hts
          obtain ⟨i1, i2, i3, i4, i5, i6, i7, ⟨u, w, hF⟩, i9⟩ := key hts
          exact ⟨i1, i2, i3, i5, i6, i7, ⟨hF.kry, fun hd => (i9 hd).on⟩, cycle_best hF (by omega)⟩
        set x := o.x + ∑ j ∈ Finset.range s.p, back s.m.H (s.p - 1) s.m.rs j • s.m.Z j with hx
        have one : s.tiny = false → norm2 (resid c b x) = s.rnorm ∧ norm2 (resid c b x) ≤ norm2 (resid c b o.x) ∧
            LastCycle c b o.x x o.it s.p s.m.V s.m.Z := by
          intro hts
          obtain ⟨f1, f2, f3, f4, f5, f6, f7, f8, f9⟩ := fin hts
          have e1 : norm2 (resid c b x) = |s.m.rs s.p| := by rw [hx, resid_add]; exact f8
          refine ⟨e1.trans f4.symm, ?_, f7.1, f7.2, ⟨_, hx⟩, fun z => ?_⟩
          · rw [e1]
            have := f9 (fun _ => 0)
            simpa using this
          · rw [e1, resid_add]; exact f9 z
        split at h
        · cases h
        · rename_i hp0
          split at h
          · rename_i hstop
            cases h
            simp only at ht ⊢
            obtain ⟨o1, o2, o3⟩ := one ht
            obtain ⟨f1, f2, f3, _⟩ := fin ht
            refine ⟨o2, ?_, Or.inl (by trivial), Or.inr ⟨o.x, o.it, s.p, _, _, le_rfl, f1, f2.symm, le_rfl, fun _ => rfl,
              Or.inl rfl, o3⟩⟩
            rcases hstop with h | h
            · exact Or.inl (by rw [o1]; exact h)
            · exact Or.inr (Or.inr (by omega))
          · rename_i hstop
            push Not at hstop
            have htr' : s.tiny = false := by
              exact outer_tiny c b _ _ _ h ht
            obtain ⟨o1, o2, o3⟩ := one htr'
            obtain ⟨f1, f2, f3, f4, f5, f6, _⟩ := fin htr'
            have hne : s.it ≠ 0 := by omega
            obtain ⟨g1, g2, g3, g4⟩ := ih _ (by simp) rfl (by simp only; omega) (fun _ => ht0) h
            simp only [hne, if_false] at g2
            refine ⟨g1.trans o2, g2, g3, Or.inr ?_⟩
            simp only at g4
            have hres : c.restart ≤ s.p := by
              by_contra hlt
              rcases f5 (by omega) with h | h
              · exact absurd h (not_le.2 hstop.1)
              · omega
            rcases g4 with ⟨e1, e2⟩ | ⟨x₀, it0, k, V, Z, l1, l2, l3, l4, l5, l6, l7⟩
            · exact ⟨o.x, o.it, s.p, _, _, le_rfl, f1, by omega, le_rfl, fun _ => rfl, Or.inl rfl, by rw [e2]; exact o3⟩
            · refine ⟨x₀, it0, k, V, Z, l1.trans o2, l2, l3, by omega, fun e => by omega, Or.inr (by omega), l7⟩

/-- What is true of every normal return: the reported final norm is the residual norm of the returned vector. -/
theorem outer_any (c : Cfg n) (b : Vec n) (fuel : ℕ) (o : Ost n) (res : Res n)
    (hr : o.rnorm = norm2 (resid c b o.x)) (hit : o.it ≤ c.maxit) (h : outer c b fuel o = .ok res) :
    res.final = norm2 (resid c b res.x) ∧ res.bnorm = norm2 b ∧ res.its ≤ c.maxit := by
  induction fuel generalizing o with
  | zero => unfold outer at h; cases h
  | succ fuel ih =>
    unfold outer at h
    simp only at h
    generalize (if o.it = 0 then relTol c o.rnorm else o.tolrel) = tr at h
    split at h
    · cases h; exact ⟨hr, rfl, hit⟩
    · split at h
      · cases h
      · rename_i s hs
        have := inner_any c _ _ _ s (by simp only; omega) hs
        simp only at this
        split at h
        · cases h
        · split at h
          · cases h; exact ⟨rfl, rfl, by simp only; omega⟩
          · exact ih _ rfl (by simp only; omega) h

/-! ### The property -/

/-- **C76 (reported residual).** Whatever the matrix, the factors, the scheme and the options: if a call returns, the
final residual norm and right-hand side norm it reports are those of the vector it returns, and at most `maxit`
iterations were made. -/
theorem C76_reported_residual (c : Cfg n) (m : Mem n) (x b : Vec n) (res : Res n) (h : fgmres c m x b = .ok res) :
    res.final = norm2 (resid c b res.x) ∧ res.bnorm = norm2 b ∧ res.its ≤ c.maxit :=
  outer_any c b _ _ _ rfl (Nat.zero_le _) h

/-- **C76 (never worse).** In exact arithmetic, if no rotation had to be guarded against division by a tiny number, the
residual after the refinement is not larger than before, whatever the preconditioner does. -/
theorem C76_never_worse (c : Cfg n) (m : Mem n) (x b : Vec n) (res : Res n) (hc : c.cond ≤ 2) (htol : 0 ≤ c.tol)
    (hm : 0 < c.maxit) (h : fgmres c m x b = .ok res) (ht : res.tiny = false) :
    norm2 (resid c b res.x) ≤ norm2 (resid c b x) :=
  (outer_spec c b hc htol _ _ res (by simp) rfl hm (fun h => absurd rfl h) h ht).1

/-- **C76 (reasons to stop).** A call returns only because the residual is small relative to the initial one, or the
chosen convergence condition holds for it, or the limit of iterations was used up. -/
theorem C76_stop (c : Cfg n) (m : Mem n) (x b : Vec n) (res : Res n) (hc : c.cond ≤ 2) (htol : 0 ≤ c.tol)
    (hm : 0 < c.maxit) (h : fgmres c m x b = .ok res) (ht : res.tiny = false) :
    norm2 (resid c b res.x) ≤ max (c.tol * norm2 (resid c b x)) (1 / 10 ^ 16) ∨
    exitCond c (norm2 b) (norm2 (resid c b res.x)) ∨ res.its = c.maxit := by
  have := (outer_spec c b hc htol _ _ res (by simp) rfl hm (fun h => absurd rfl h) h ht).2.1
  rcases this with h | h
  · left
    refine h.trans ?_
    simp only [if_true, relTol]
    split
    · exact le_max_right _ _
    · exact le_max_left _ _
  · exact Or.inr h

/-- **C76 (best correction).** If iterations were made, the returned vector has the smallest residual among all vectors
that the last cycle could form: the vector `x₀` before the cycle plus any combination of the preconditioned vectors.
The cycle's vectors are those of the flexible Krylov method for the residual of `x₀`, and `x₀` is the vector the
call was given if there was only one cycle. -/
theorem C76_minimal (c : Cfg n) (m : Mem n) (x b : Vec n) (res : Res n) (hc : c.cond ≤ 2) (htol : 0 ≤ c.tol)
    (hm : 0 < c.maxit) (h : fgmres c m x b = .ok res) (ht : res.tiny = false) (hi : res.its ≠ 0) :
    ∃ x₀ it0 k V Z, norm2 (resid c b x₀) ≤ norm2 (resid c b x) ∧ 0 < k ∧ it0 + k = res.its ∧
      (res.its ≤ c.restart → x₀ = x) ∧ Kry c (resid c b x₀) it0 V Z k ∧
      (∃ y : ℕ → ℝ, res.x = x₀ + ∑ j ∈ Finset.range k, y j • Z j) ∧
      ∀ z : ℕ → ℝ, norm2 (resid c b res.x) ≤ norm2 (resid c b (x₀ + ∑ j ∈ Finset.range k, z j • Z j)) := by
  have := (outer_spec c b hc htol _ _ res (by simp) rfl hm (fun h => absurd rfl h) h ht).2.2.2
  rcases this with ⟨e, _⟩ | ⟨x₀, it0, k, V, Z, l1, l2, l3, l4, l5, l6, l7⟩
  · exact absurd e hi
  · simp only at l1 l5 l6
    exact ⟨x₀, it0, k, V, Z, l1, l2, l3, fun hle => l5 (by omega), l7.kry, l7.comb, l7.best⟩

/-- **C76 (number of iterations).** The reported number of iterations is the number of iterations, except that it is
zero if the last cycle was not begun because the convergence condition held. -/
theorem C76_iterations_partial (c : Cfg n) (m : Mem n) (x b : Vec n) (res : Res n) (hc : c.cond ≤ 2) (htol : 0 ≤ c.tol)
    (hm : 0 < c.maxit) (h : fgmres c m x b = .ok res) (ht : res.tiny = false) :
    res.iters = res.its ∨ res.iters = 0 ∧ exitCond c (norm2 b) (norm2 (resid c b res.x)) :=
  (outer_spec c b hc htol _ _ res (by simp) rfl hm (fun h => absurd rfl h) h ht).2.2.1

/-- **C76 (solve).** A solve with refinement is never worse than the solve with the factors alone. -/
theorem C76_solve (c : Cfg n) (m : Mem n) (sol : Vec n → Vec n) (b : Vec n) (res : Res n) (hc : c.cond ≤ 2)
    (htol : 0 ≤ c.tol) (hm : 0 < c.maxit) (h : solveRf c m sol b = .ok res) (ht : res.tiny = false) :
    norm2 (resid c b res.x) ≤ norm2 (resid c b (sol b)) := C76_never_worse c m (sol b) b res hc htol hm h ht

/-- **C76 (termination, memory).** With a positive iteration limit every call either returns or ends in the assertion
about a Krylov vector with zero norm; arrays are never accessed out of bounds. Without assertions it always returns. -/
theorem C76_terminates (c : Cfg n) (m : Mem n) (x b : Vec n) (hm : 0 < c.maxit) :
    (∃ res, fgmres c m x b = .ok res) ∨ c.dbg = true ∧ fgmres c m x b = .error .zeroNorm := by
  have gs : ∀ i (m : Mem n), (∃ m', gramSchmidt c i m = .ok m') ∨ c.dbg = true ∧ gramSchmidt c i m = .error .zeroNorm := by
    intro i m
    unfold gramSchmidt normalize
    simp only
    split
    · exact Or.inl ⟨_, rfl⟩
    · cases c.dbg <;> simp
  have bd : ∀ s : Cyc n, (∃ s', body c s = .ok s') ∨ c.dbg = true ∧ body c s = .error .zeroNorm := by
    intro s
    unfold body
    simp only
    rcases gs s.p { s.m with Z := set1 s.m.Z s.p (c.lu s.it (s.m.V s.p)),
                             V := set1 s.m.V (s.p + 1) (c.A.mulVec (c.lu s.it (s.m.V s.p))) } with ⟨m', h⟩ | ⟨hd, h⟩
    · rw [h]; exact Or.inl ⟨_, rfl⟩
    · rw [h]; exact Or.inr ⟨hd, rfl⟩
  have inn : ∀ tr fuel (s : Cyc n), (∃ s', inner c tr fuel s = .ok s') ∨
      c.dbg = true ∧ inner c tr fuel s = .error .zeroNorm := by
    intro tr fuel
    induction fuel with
    | zero => intro s; exact Or.inl ⟨s, rfl⟩
    | succ fuel ih =>
      intro s
      unfold inner
      rcases bd s with ⟨s', h⟩ | ⟨hd, h⟩
      · rw [h]; simp only
        split
        · exact Or.inl ⟨_, rfl⟩
        · exact ih s'
      · rw [h]; exact Or.inr ⟨hd, rfl⟩
  have out : ∀ fuel (o : Ost n), o.it < c.maxit → c.maxit < fuel + o.it →
      (∃ res, outer c b fuel o = .ok res) ∨ c.dbg = true ∧ outer c b fuel o = .error .zeroNorm := by
    intro fuel
    induction fuel with
    | zero => intro o h1 h2; omega
    | succ fuel ih =>
      intro o h1 h2
      unfold outer
      simp only
      generalize (if o.it = 0 then relTol c o.rnorm else o.tolrel) = tr
      split
      · exact Or.inl ⟨_, rfl⟩
      · generalize hcyc : (⟨_, 0, o.it, o.rnorm, o.tiny⟩ : Cyc n) = s0
        rcases inn tr (c.maxit - o.it) s0 with ⟨s, h⟩ | ⟨hd, h⟩
        · rw [h]
          simp only
          have := inner_any c _ _ _ s (by rw [← hcyc]) h
          rw [← hcyc] at this
          simp only at this
          rw [if_neg (by omega)]
          split
          · exact Or.inl ⟨_, rfl⟩
          · rename_i hs
            push Not at hs
            exact ih _ hs.2 (by simp only; omega)
        · rw [h]; exact Or.inr ⟨hd, rfl⟩
  exact out _ _ hm (by simp only; omega)

/-! ### Breakdown -/

theorem ON_le {V : ℕ → Vec n} {p : ℕ} (h : ON V p) : p ≤ n := by
  have li : LinearIndependent ℝ (fun i : Fin p => V i) := by
    rw [Fintype.linearIndependent_iff]
    intro g hg i
    have e : ∑ k ∈ Finset.range p, (fun k => if hk : k < p then g ⟨k, hk⟩ else 0) k • V k = 0 := by
      rw [← hg, ← Fin.sum_univ_eq_sum_range (fun k => (if hk : k < p then g ⟨k, hk⟩ else 0) • V k) p]
      refine Finset.sum_congr rfl fun j _ => ?_
      simp only [j.2, dif_pos]
    have := dot_sum h (fun k => if hk : k < p then g ⟨k, hk⟩ else 0) le_rfl i.2
    rw [e, dotProduct_zero, if_pos i.2] at this
    simp only [i.2, dif_pos] at this
    exact this.symm
  have := li.fintype_card_le_finrank
  simpa using this

/-- **C76 (breakdown).** In a build with assertions the last cycle of a call that returns had fewer iterations than the
system has unknowns: a cycle that would find the exact solution in the last possible iteration ends in the
assertion about a Krylov vector with zero norm instead. -/
theorem C76_breakdown (c : Cfg n) (m : Mem n) (x b : Vec n) (res : Res n) (hc : c.cond ≤ 2) (htol : 0 ≤ c.tol)
    (hm : 0 < c.maxit) (hd : c.dbg = true) (h : fgmres c m x b = .ok res) (ht : res.tiny = false)
    (hr : res.its ≤ c.restart) : res.its = 0 ∨ res.its < n := by
  have := (outer_spec c b hc htol _ _ res (by simp) rfl hm (fun h => absurd rfl h) h ht).2.2.2
  rcases this with ⟨e, _⟩ | ⟨x₀, it0, k, V, Z, l1, l2, l3, l4, l5, l6, l7⟩
  · exact Or.inl e
  · simp only at l6
    have := ON_le (l7.dbg hd)
    omega

/-- For one unknown every call in such a build ends in the assertion, unless there is nothing to do. -/
theorem C76_one_unknown_refuted (c : Cfg 1) (m : Mem 1) (x b : Vec 1) (hc : c.cond ≤ 2) (hm : 0 < c.maxit)
    (hd : c.dbg = true) (hne : ¬ exitCond c (norm2 b) (norm2 (resid c b x))) :
    fgmres c m x b = .error .zeroNorm := by
  rcases C76_terminates c m x b hm with ⟨res, h⟩ | h
  · exfalso
    unfold fgmres outer at h
    simp only [if_neg hne] at h
    split at h
    · cases h
    · rename_i s hs
      have hp : 0 < norm2 (resid c b x) := lt_trans eps_pos (exit_eps c hc hne (norm2_nonneg _))
      have hJ := start_J c { m with V := set1 m.V 0 (resid c b x) } (resid c b x) 0 (by simp) hp.ne'
      obtain ⟨fu, hfu⟩ : ∃ fu, c.maxit - 0 = fu + 1 := ⟨c.maxit - 1, by omega⟩
      rw [hfu] at hs
      unfold inner at hs
      split at hs
      · cases hs
      · rename_i s1 hb
        unfold body at hb
        simp only at hb
        split at hb
        · cases hb
        · rename_i m1 hg
          obtain ⟨_, _, _, _, hon, _⟩ := gramSchmidt_spec c 0 _ m1 (by
            intro j hj k hk
            have h1 := hJ.on j hj k hk
            simp only at h1 ⊢
            rw [set1_ne _ _ (show j ≠ 0 + 1 by omega), set1_ne _ _ (show k ≠ 0 + 1 by omega)]
            exact h1) (fun _ k hk => absurd hk (by omega)) hg
          have := ON_le (hon (gramSchmidt_dbg c 0 _ m1 hd hg))
          omega
  · exact h.2

/-! ### The four schemes compute the same -/

/-- **C76 (orthogonalization).** For orthonormal `V₀ … Vᵢ`, every scheme writes the same coefficients and leaves the same
new vector: the component of the new vector orthogonal to the others, normalized. -/
theorem C76_schemes_agree (o o' : Orth) (i : ℕ) (m : Mem n) (hon : ON m.V (i + 1)) (hl : LZ m.L i) :
    (∀ j ≤ i, (orthogonalize o i m).H i j = m.V j ⬝ᵥ m.V (i + 1)) ∧
    (orthogonalize o i m).V = (orthogonalize o' i m).V ∧
    ∀ j ≤ i, (orthogonalize o i m).V j ⬝ᵥ (orthogonalize o i m).V (i + 1) = 0 := by
  have a := (orth_coeff o i m hon hl).1
  have a' := (orth_coeff o' i m hon hl).1
  obtain ⟨f, d⟩ := orth_decomp o i m
  obtain ⟨f', d'⟩ := orth_decomp o' i m
  refine ⟨a, ?_, fun j hj => ?_⟩
  · funext j
    by_cases e : j = i + 1
    · subst e
      rw [d, d']
      congr 1
      refine Finset.sum_congr rfl fun j hj => ?_
      have := Finset.mem_range.1 hj
      rw [a j (by omega), a' j (by omega)]
    · rw [f.V j e, f'.V j e]
  · rw [f.V j (by omega), d, dotProduct_sub, dot_sum hon _ le_rfl (by omega), if_pos (by omega), a j hj, sub_self]

/-- **C76 (decomposition).** The product of the matrix with the preconditioned vector is the combination of basis
vectors that the new column of `H` says, for every scheme and whether or not the basis is orthonormal, as long as
the new vector is not zero. -/
theorem C76_arnoldi (c : Cfg n) (i : ℕ) (m m' : Mem n) (h : gramSchmidt c i m = .ok m')
    (hne : m'.H i (i + 1) ≠ 0) :
    m.V (i + 1) = ∑ j ∈ Finset.range (i + 2), m'.H i j • m'.V j := by
  obtain ⟨fr, hd⟩ := orth_decomp c.orth i m
  unfold gramSchmidt at h
  generalize orthogonalize c.orth i m = a at h fr hd
  unfold normalize at h
  simp only at h
  generalize ht : √(a.V (i + 1) ⬝ᵥ a.V (i + 1)) = t at h
  split at h
  · rename_i ht
    cases h
    rw [Finset.sum_range_succ]
    simp only [set2, set1_same, smul_smul, mul_one_div_cancel ht, one_smul]
    have : ∑ j ∈ Finset.range (i + 1), set1 (a.H i) (i + 1) t j • set1 a.V (i + 1) ((1 / t) • a.V (i + 1)) j =
        ∑ j ∈ Finset.range (i + 1), a.H i j • m.V j := by
      refine Finset.sum_congr rfl fun j hj => ?_
      have := Finset.mem_range.1 hj
      rw [set1_ne _ _ (by omega), set1_ne _ _ (by omega), fr.V j (by omega)]
    rw [this, hd]
    abel
  · rename_i h0
    split at h
    · cases h
    · cases h
      simp only [set2, set1_same] at hne
      exact absurd hne h0

/-! ### The reduction kernel -/

/-- **C76 (kernel).** The reduction kernel computes the inner product, for vectors of any length. -/
theorem C76_kernel (N : ℕ) (u v : ℕ → ℝ) : massIP N u v = ∑ k ∈ Finset.range N, u k * v k := by
  have tree : ∀ f : ℕ → ℝ, (halve 1 32 (halve 2 32 (halve 4 32 (halve 8 32 (halve 16 32 (halve 32 32
      (halve 64 64 (halve 128 128 (halve 256 256 (halve 512 512 f)))))))))) 0 = ∑ t ∈ Finset.range 1024, f t := by
    intro f
    have h : ∀ (w w2 lanes : ℕ) (g : ℕ → ℝ), w2 = w + w → w ≤ lanes →
        ∑ t ∈ Finset.range w, halve w lanes g t = ∑ t ∈ Finset.range w2, g t := by
      intro w w2 lanes g hw2 hw
      rw [hw2, Finset.sum_range_add, ← Finset.sum_add_distrib]
      refine Finset.sum_congr rfl fun t ht => ?_
      have := Finset.mem_range.1 ht
      simp only [halve, if_pos (show t < lanes by omega), add_comm]
    rw [← Finset.sum_range_one (fun t => (halve 1 32 _) t)]
    rw [h 1 2 32 _ (by norm_num) (by norm_num), h 2 4 32 _ (by norm_num) (by norm_num),
      h 4 8 32 _ (by norm_num) (by norm_num), h 8 16 32 _ (by norm_num) (by norm_num),
      h 16 32 32 _ (by norm_num) (by norm_num), h 32 64 32 _ (by norm_num) (by norm_num),
      h 64 128 64 _ (by norm_num) (by norm_num), h 128 256 128 _ (by norm_num) (by norm_num),
      h 256 512 256 _ (by norm_num) (by norm_num), h 512 1024 512 _ (by norm_num) (by norm_num)]
  have e : massIP N u v = ∑ t ∈ Finset.range 1024, ∑ q ∈ Finset.range (N + 1),
      if t + 1024 * q < N then u (t + 1024 * q) * v (t + 1024 * q) else 0 := tree _
  rw [e, Finset.sum_comm]
  have blocks : ∀ (B : ℕ) (f : ℕ → ℝ) (Q : ℕ), ∑ q ∈ Finset.range Q, ∑ t ∈ Finset.range B, f (t + B * q) =
      ∑ k ∈ Finset.range (B * Q), f k := by
    intro B f Q
    induction Q with
    | zero => simp
    | succ Q ih =>
      rw [Finset.sum_range_succ, ih, Nat.mul_succ, Finset.sum_range_add]
      congr 1
      exact Finset.sum_congr rfl fun t _ => by rw [add_comm]
  rw [blocks 1024 (fun k => if k < N then u k * v k else 0) (N + 1)]
  rw [← Finset.sum_subset (s₁ := Finset.range N)]
  · exact Finset.sum_congr rfl fun k hk => if_pos (Finset.mem_range.1 hk)
  · intro k hk; have := Finset.mem_range.1 hk; exact Finset.mem_range.2 (by omega)
  · intro k _ hk; exact if_neg (fun h => hk (Finset.mem_range.2 h))

/-! ### Examples -/

/-- Two unknowns, factors of the identity instead of the matrix, restart after every iteration, convergence condition
`residual < tol`. -/
noncomputable def exC : Cfg 2 := ⟨!![1, 7; 0, 24], fun _ v => v, 1, 2, 1 / 10, 1, .mgs, true⟩

noncomputable def exB : Vec 2 := ![0, 1 / 5]

theorem ex_r : resid exC exB 0 = ![0, 1 / 5] := by simp [resid, exB]

theorem ex_n : norm2 (![0, 1 / 5] : Vec 2) = 1 / 5 := by
  simp [norm2, dotProduct, Fin.sum_univ_two]

theorem ex_body (m : Mem 2) (hV : m.V 0 = ![0, 1]) (hrs : m.rs 0 = 1 / 5) :
    ∃ m3, body exC ⟨m, 0, 0, 1 / 5, false⟩ = .ok ⟨m3, 1, 1, 7 / 125, false⟩ ∧
    m3.H 0 0 = 25 ∧ m3.rs 0 = 24 / 125 ∧ m3.Z 0 = ![0, 1] := by
  generalize hv : m.V 0 = v at *
  generalize hw : exC.A.mulVec v = w at *
  have hw1 : w = ![7, 24] := by
    rw [← hw, hV]
    funext i; fin_cases i <;> simp [exC, Matrix.mulVec, dotProduct, Fin.sum_univ_two]
  have hd : v ⬝ᵥ w = 24 := by rw [hw1, hV]; simp [dotProduct, Fin.sum_univ_two]
  generalize hu : w + (24 * -1 : ℝ) • v = u at *
  have hu1 : u = ![7, 0] := by
    rw [← hu, hw1, hV]
    funext i; fin_cases i <;> norm_num
  have huu : √(u ⬝ᵥ u) = 7 := by
    rw [hu1]
    simp only [dotProduct, Fin.sum_univ_two, Matrix.cons_val_zero, Matrix.cons_val_one]; norm_num
  have e25 : √(24 * 24 + 7 * 7 : ℝ) = 25 := by norm_num
  unfold body gramSchmidt
  simp only [show exC.lu = fun _ v => v from rfl, show exC.orth = .mgs from rfl, show exC.dbg = true from rfl,
    orthogonalize, mgs, mgsStep, List.range_succ, List.range_zero, List.nil_append, List.foldl_cons, List.foldl_nil,
    normalize, set1_same, set1_ne _ _ (show (0 : ℕ) ≠ 0 + 1 by omega), hv, hw, hd, hu, huu]
  rw [if_pos (by norm_num)]
  have hg : |(25 : ℝ)| ≤ EPSILON ↔ False := by
    simp only [EPSILON, iff_false]; norm_num
  refine ⟨_, congrArg Except.ok (Cyc.mk.injEq .. |>.mpr ⟨rfl, rfl, rfl, ?_, ?_⟩), ?_, ?_, ?_⟩ <;>
    simp only [rotate, gam, givens, set1, set2, List.range_zero, List.foldl_nil, hrs, if_true, if_false, e25, hg,
      sub_zero, Nat.zero_add, Nat.one_ne_zero, Nat.zero_ne_one, decide_false, Bool.or_false, and_true, and_false,
      true_and, false_and, hV] <;> norm_num [e25]

theorem ex_r2 : resid exC exB ![0, 24 / 3125] = ![-168 / 3125, 49 / 3125] := by
  funext i
  fin_cases i <;> simp [resid, exB, exC, Matrix.mulVec, dotProduct, Fin.sum_univ_two] <;> norm_num

theorem ex_n2 : norm2 (![-168 / 3125, 49 / 3125] : Vec 2) = 7 / 125 := by
  simp only [norm2, dotProduct, Fin.sum_univ_two, Matrix.cons_val_zero, Matrix.cons_val_one]
  norm_num

/-- **C76, the reported statistics**: the call below does one iteration that reduces the residual from `1/5` to
`7/125`, and reports zero iterations and an initial residual of `7/125`. -/
theorem C76_statistics_refuted (m : Mem 2) : ∃ r, fgmres exC m 0 exB = .ok r ∧ norm2 (resid exC exB 0) = 1 / 5 ∧
    r.final = 7 / 125 ∧ r.its = 1 ∧ r.iters = 0 ∧ r.init = 7 / 125 ∧ r.tiny = false := by
  have hb : norm2 exB = 1 / 5 := ex_n
  have e1 : ¬ exitCond exC (norm2 exB) (1 / 5) := by
    simp only [exitCond, exC, EPSILON]; norm_num
  have e2 : exitCond exC (norm2 exB) (7 / 125) := by
    simp only [exitCond, exC]; norm_num
  have et : relTol exC (1 / 5) = 1 / 50 := by
    simp only [relTol, exC]; norm_num
  have hv : ((1 / (1 / 5 : ℝ)) • (![0, 1 / 5] : Vec 2)) = ![0, 1] := by
    funext i; fin_cases i <;> simp
  obtain ⟨m3, h3, hH, hrs, hZ⟩ := ex_body
    { m with V := set1 (set1 m.V 0 ![0, 1 / 5]) 0 ((1 / (1 / 5 : ℝ)) • set1 m.V 0 ![0, 1 / 5] 0),
             rs := set1 m.rs 0 (1 / 5) } (by simp only [set1_same]; exact hv) (by simp only [set1_same])
  have hx : (0 : Vec 2) + ∑ j ∈ Finset.range 1, back m3.H (1 - 1) m3.rs j • m3.Z j = ![0, 24 / 3125] := by
    simp only [Finset.sum_range_one, hZ, back, Nat.sub_self, List.range_zero, List.reverse_nil, List.foldl_nil, set1_same,
      hH, hrs, zero_add]
    funext i; fin_cases i <;> norm_num
  refine ⟨⟨![0, 24 / 3125], 7 / 125, 7 / 125, 1 / 5, 0, 1, false⟩, ?_, by rw [ex_r, ex_n], rfl, rfl, rfl, rfl, rfl⟩
  unfold fgmres
  simp only [ex_r, ex_n, show exC.maxit = 2 from rfl]
  rw [outer]
  simp only [if_true, if_neg e1, et, show exC.maxit = 2 from rfl, inner, h3]
  simp only [show exC.restart = 1 from rfl, le_refl, true_or, if_true, Nat.one_ne_zero, if_false, hx, ex_r2, ex_n2]
  rw [if_neg (by norm_num), outer]
  simp only [if_pos e2, hb]

/-- The hypotheses of the theorems about a run are met by this call: it ends without reaching a guard, after an
iteration, and the residual is smaller. -/
example (m : Mem 2) : ∃ r, fgmres exC m 0 exB = .ok r ∧ r.tiny = false ∧ r.its ≠ 0 ∧ exC.cond ≤ 2 ∧ 0 ≤ exC.tol ∧
    0 < exC.maxit ∧ exC.dbg = true ∧ r.its ≤ exC.restart ∧ r.final < norm2 (resid exC exB 0) := by
  obtain ⟨r, h, h0, hf, hi, _, _, ht⟩ := C76_statistics_refuted m
  refine ⟨r, h, ht, by omega, ?_, ?_, ?_, rfl, ?_, by rw [h0, hf]; norm_num⟩ <;> simp [exC, hi]

/-- The same solve with one unknown: the exact solution exists, and the assertion ends the program. -/
example (m : Mem 1) : fgmres ⟨!![2], fun _ v => v, 1, 2, 1 / 10, 0, .mgs, true⟩ m 0 ![1] = .error .zeroNorm := by
  refine C76_one_unknown_refuted _ m 0 ![1] (by simp) (by simp) rfl ?_
  simp only [exitCond, resid, norm2, EPSILON, dotProduct, Fin.sum_univ_one, Matrix.mulVec_zero, sub_zero,
    Matrix.cons_val_zero]
  norm_num

/-- A matrix with entries near `10^-20`. -/
noncomputable def exT : Cfg 2 :=
  ⟨!![0, 3 / 10 ^ 20; 1, 4 / 10 ^ 20], fun _ v => v, 2, 5, 1 / 1000, 0, .mgs, true⟩

noncomputable def exTb : Vec 2 := ![0, 1]

theorem exT_body (m : Mem 2) (hV : m.V 0 = ![0, 1]) (hrs : m.rs 0 = 1) :
    ∃ m3, body exT ⟨m, 0, 0, 1, false⟩ = .ok ⟨m3, 1, 1, 3 / 10000, true⟩ ∧
    m3.H 0 0 = 25 / 10 ^ 24 ∧ m3.rs 0 = 4 / 10000 ∧ m3.Z 0 = ![0, 1] := by
  generalize hv : m.V 0 = v at *
  generalize hw : exT.A.mulVec v = w at *
  have hw1 : w = ![3 / 10 ^ 20, 4 / 10 ^ 20] := by
    rw [← hw, hV]
    funext i; fin_cases i <;> simp [exT, Matrix.mulVec, dotProduct, Fin.sum_univ_two]
  have hd : v ⬝ᵥ w = 4 / 10 ^ 20 := by rw [hw1, hV]; simp [dotProduct, Fin.sum_univ_two]
  generalize hu : w + (4 / 10 ^ 20 * -1 : ℝ) • v = u at *
  have hu1 : u = ![3 / 10 ^ 20, 0] := by
    rw [← hu, hw1, hV]
    funext i; fin_cases i <;> norm_num
  have huu : √(u ⬝ᵥ u) = 3 / 10 ^ 20 := by
    rw [hu1]
    simp only [dotProduct, Fin.sum_univ_two, Matrix.cons_val_zero, Matrix.cons_val_one]; norm_num
  have e25 : √(4 / 10 ^ 20 * (4 / 10 ^ 20) + 3 / 10 ^ 20 * (3 / 10 ^ 20) : ℝ) = 5 / 10 ^ 20 := by norm_num
  unfold body gramSchmidt
  simp only [show exT.lu = fun _ v => v from rfl, show exT.orth = .mgs from rfl, show exT.dbg = true from rfl,
    orthogonalize, mgs, mgsStep, List.range_succ, List.range_zero, List.nil_append, List.foldl_cons, List.foldl_nil,
    normalize, set1_same, set1_ne _ _ (show (0 : ℕ) ≠ 0 + 1 by omega), hv, hw, hd, hu, huu]
  rw [if_pos (by norm_num)]
  have hg : |(5 / 10 ^ 20 : ℝ)| ≤ EPSILON ↔ True := by
    simp only [EPSILON, iff_true]; norm_num
  refine ⟨_, congrArg Except.ok (Cyc.mk.injEq .. |>.mpr ⟨rfl, rfl, rfl, ?_, ?_⟩), ?_, ?_, ?_⟩ <;>
    simp only [rotate, gam, givens, set1, set2, List.range_zero, List.foldl_nil, hrs, if_true, if_false, e25, hg,
      sub_zero, Nat.zero_add, Nat.one_ne_zero, Nat.zero_ne_one, decide_true, Bool.or_true, and_true, and_false,
      true_and, false_and, hV, EPSMAC] <;> norm_num [e25]

/-- **C76, the guard against division by a tiny number**: once it is taken, the estimate is not the norm of the
residual. The call below stops after one of five iterations because the estimate is `3/10000` (the tolerance is
`1/1000`), with a residual of `3/5`, which satisfies none of the reasons to stop. -/
theorem C76_guard_refuted (m : Mem 2) : ∃ r, fgmres exT m 0 exTb = .ok r ∧ norm2 (resid exT exTb 0) = 1 ∧
    norm2 (resid exT exTb r.x) = 3 / 5 ∧ r.its = 1 ∧ r.tiny = true ∧
    ¬ (norm2 (resid exT exTb r.x) ≤ max (exT.tol * norm2 (resid exT exTb 0)) (1 / 10 ^ 16) ∨
      exitCond exT (norm2 exTb) (norm2 (resid exT exTb r.x)) ∨ r.its = exT.maxit) := by
  have hr0 : resid exT exTb 0 = ![0, 1] := by simp [resid, exTb]
  have hn0 : norm2 (![0, 1] : Vec 2) = 1 := by simp [norm2, dotProduct, Fin.sum_univ_two]
  have hr1 : resid exT exTb ![0, 16 * 10 ^ 18] = ![-12 / 25, 9 / 25] := by
    funext i
    fin_cases i <;> simp [resid, exTb, exT, Matrix.mulVec, dotProduct, Fin.sum_univ_two] <;> norm_num
  have hn1 : norm2 (![-12 / 25, 9 / 25] : Vec 2) = 3 / 5 := by
    simp only [norm2, dotProduct, Fin.sum_univ_two, Matrix.cons_val_zero, Matrix.cons_val_one]
    norm_num
  have e1 : ¬ exitCond exT (norm2 exTb) 1 := by
    simp only [exitCond, exT, EPSILON]; norm_num
  have et : relTol exT 1 = 1 / 1000 := by
    simp only [relTol, exT]; norm_num
  obtain ⟨m3, h3, hH, hrs, hZ⟩ := exT_body
    { m with V := set1 (set1 m.V 0 ![0, 1]) 0 ((1 / (1 : ℝ)) • set1 m.V 0 ![0, 1] 0),
             rs := set1 m.rs 0 1 } (by simp [set1_same]) (by simp only [set1_same])
  have hx : (0 : Vec 2) + ∑ j ∈ Finset.range 1, back m3.H (1 - 1) m3.rs j • m3.Z j = ![0, 16 * 10 ^ 18] := by
    simp only [Finset.sum_range_one, hZ, back, Nat.sub_self, List.range_zero, List.reverse_nil, List.foldl_nil, set1_same,
      hH, hrs, zero_add]
    funext i; fin_cases i <;> norm_num
  refine ⟨⟨![0, 16 * 10 ^ 18], 3 / 5, 1, 1, 1, 1, true⟩, ?_, by rw [hr0, hn0], by rw [hr1, hn1], rfl, rfl, ?_⟩
  · unfold fgmres
    simp only [hr0, hn0, show exT.maxit = 5 from rfl]
    rw [outer]
    simp only [if_true, if_neg e1, et, show exT.maxit = 5 from rfl, show exTb = ![0, 1] from rfl, hn0]
    rw [show 5 - 0 = 4 + 1 from rfl, inner]
    simp only [h3]
    rw [if_pos (by norm_num)]
    simp only [show (![0, 1] : Vec 2) = exTb from rfl, Nat.one_ne_zero, if_false, hx, hr1, hn1]
    rw [if_pos (by norm_num)]
  · simp only [hr0, hn0, hr1, hn1]
    simp only [exitCond, exT, EPSILON]
    norm_num

/-- The orthonormality the schemes need holds after one step. -/
example : ∃ m : Mem 2, ON m.V (0 + 1) ∧ LZ m.L 0 := by
  refine ⟨⟨fun _ => ![0, 1], 0, 0, 0, 0, 0, 0, 0, 0⟩, fun j hj k hk => ?_, ?_⟩
  · have : j = 0 := by omega
    have : k = 0 := by omega
    subst_vars
    simp
  · simp [LZ]

end Hiop.Fgmres
