import Verif.Gpu.Model
import Verif.Raja.VecProps

/-!
# C71: vectors on CUDA and HIP devices

For every schedule of the threads and every order of the reductions, the operations of `hiopVectorCuda`
and `hiopVectorHip` have the outcome of the same operation of `hiopVectorPar` (Verif.Vec.Model,
Verif.Range.Model), whatever the size of the grid. The operations for which this is not so are stated
with the exact outcome, the cases in which they agree (`_partial`) and a case in which they do not
(`_refuted`).
-/

set_option linter.unusedSectionVars false

namespace Hiop.Gpu

open Hiop.Vec Hiop.Raja Function

/-! ## Grids -/

section
variable {L : Type} {V : L → Type}

theorem seqP_ret (p : Prog L V) : seqP p .ret = p := by
  induction p with
  | ret => rfl
  | fail => rfl
  | rd l k ih => simp only [seqP, ih]
  | wr l v k ih => simp only [seqP, ih]
  | rmw l f k ih => simp only [seqP, ih]

theorem gridStride_ge {T n i : ℕ} (body : ℕ → Prog L V) (h : n ≤ i) :
    gridStride T n body i = .ret := by
  rw [gridStride, dif_neg (by omega)]

/-- A thread of a grid that covers the vector handles at most one index: its own. -/
theorem gridStride_covered {T n i : ℕ} (body : ℕ → Prog L V) (hT : n ≤ T) (hi : i < n) :
    gridStride T n body i = body i := by
  rw [gridStride, dif_pos (by omega), gridStride_ge _ (by omega), seqP_ret]

variable [DecidableEq L]

/-- Threads without work do not change the outcomes. -/
theorem forallR_idle {n T : ℕ} (hT : n ≤ T) (b : ℕ → Prog L V) (hb : ∀ i, n ≤ i → b i = .ret)
    (m : Mem V) : forallR T b m = forallR n b m := by
  have down : ∀ s : (Fin T → Prog L V) × Mem V, Exec (fun i : Fin T => b i, m) s →
      Exec (fun i : Fin n => b i, m) (fun i => s.1 (Fin.castLE hT i), s.2) ∧
        ∀ i : Fin T, n ≤ i → s.1 i = .ret := by
    intro s hs
    induction hs with
    | refl => exact ⟨Relation.ReflTransGen.refl, fun i hi => hb i hi⟩
    | tail _ hstep ih =>
      obtain ⟨h1, h2⟩ := ih
      cases hstep with
      | mk P m1 i p m2 h =>
        by_cases hi : (i : ℕ) < n
        · refine ⟨h1.tail ?_, fun j hj => ?_⟩
          · have e : (fun j : Fin n => update P i p (Fin.castLE hT j))
                = update (fun j : Fin n => P (Fin.castLE hT j)) ⟨i, hi⟩ p := by
              funext j
              by_cases hj : j = ⟨i, hi⟩
              · subst hj
                simp [show Fin.castLE hT ⟨(i : ℕ), hi⟩ = i from rfl]
              · have : Fin.castLE hT j ≠ i := fun e => hj (Fin.ext (by simpa using congrArg Fin.val e))
                rw [update_of_ne this, update_of_ne hj]
            show Step _ ((fun j : Fin n => update P i p (Fin.castLE hT j)), m2)
            rw [e]
            exact Step.mk (ι := Fin n) _ _ ⟨i, hi⟩ _ _ h
          · have : j ≠ i := fun e => by subst e; omega
            simp only [update_of_ne this]
            exact h2 j hj
        · have : P i = .ret := h2 i (by omega)
          rw [this] at h
          exact absurd h (by simp [act])
  have up : ∀ s : (Fin n → Prog L V) × Mem V, Exec (fun i : Fin n => b i, m) s →
      Exec (fun i : Fin T => b i, m)
        (fun i => if h : (i : ℕ) < n then s.1 ⟨i, h⟩ else .ret, s.2) := by
    intro s hs
    induction hs with
    | refl =>
      have : (fun i : Fin T => if h : (i : ℕ) < n then b i else .ret) = fun i : Fin T => b i := by
        funext i
        split_ifs with h
        · rfl
        · exact (hb i (by omega)).symm
      show Exec _ ((fun i : Fin T => if h : (i : ℕ) < n then b i else .ret), m)
      rw [this]
    | tail _ hstep ih =>
      cases hstep with
      | mk P m1 i p m2 h =>
        refine ih.tail ?_
        have e : (fun j : Fin T => if h : (j : ℕ) < n then update P i p ⟨j, h⟩ else .ret)
            = update (fun j : Fin T => if h : (j : ℕ) < n then P ⟨j, h⟩ else .ret)
              (Fin.castLE hT i) p := by
          funext j
          by_cases hj : j = Fin.castLE hT i
          · subst hj
            simp
          · rw [update_of_ne hj]
            split_ifs with hjn
            · have : (⟨j, hjn⟩ : Fin n) ≠ i := fun e => hj (Fin.ext (by simpa using congrArg Fin.val e))
              rw [update_of_ne this]
            · rfl
        show Step _ ((fun j : Fin T => if h : (j : ℕ) < n then update P i p ⟨j, h⟩ else .ret), m2)
        rw [e]
        exact Step.mk _ _ _ _ _ (by simpa using h)
  ext o
  constructor
  · rintro (⟨m', rfl, P, hex, hP⟩ | ⟨rfl, P, m', hex, i, hi⟩)
    · exact Or.inl ⟨m', rfl, _, (down _ hex).1, fun i => hP _⟩
    · obtain ⟨h1, h2⟩ := down _ hex
      by_cases hin : (i : ℕ) < n
      · exact Or.inr ⟨rfl, _, m', h1, ⟨i, hin⟩, hi⟩
      · have := h2 i (by omega)
        rw [show (P, m').1 i = Prog.fail from hi] at this
        cases this
  · rintro (⟨m', rfl, P, hex, hP⟩ | ⟨rfl, P, m', hex, i, hi⟩)
    · refine Or.inl ⟨m', rfl, _, up _ hex, fun i => ?_⟩
      dsimp only
      split_ifs
      · exact hP _
      · rfl
    · exact Or.inr ⟨rfl, _, m', up _ hex, Fin.castLE hT i, by simpa using hi⟩

theorem forallR_zero (b : ℕ → Prog L V) (m : Mem V) : forallR 0 b m = .one m :=
  forallR_race_free m (fun _ => ∅) (fun _ => ∅) (fun _ => m) (fun _ h => absurd h (by omega))
    (fun _ _ h => absurd h (by omega)) (fun _ h => absurd h (by omega))
    (fun _ h => absurd h (by omega)) fun _ _ => rfl

/-- **C71, every index once.** A launch runs the body for every index of the vector, and for no other
one, exactly once, concurrently; also for an empty vector, whose launch is rejected. -/
theorem launchG_eq {ng n : ℕ} (h : n ≤ ng) (body : ℕ → Prog L V) (m : Mem V) :
    launchG ng n body m = forallR n body m := by
  unfold launchG
  by_cases h0 : numBlocks ng = 0
  · have hng : ng = 0 := by
      unfold numBlocks blockSize at h0
      omega
    have : n = 0 := by omega
    subst this
    rw [if_pos h0, forallR_zero]
  · rw [if_neg h0]
    have hT : n ≤ numBlocks ng * blockSize := by
      unfold numBlocks blockSize at *
      omega
    rw [forallR_idle hT _ fun i hi => gridStride_ge _ hi]
    exact forallR_congr (fun i hi => gridStride_covered _ hT hi) m

theorem launch_eq (n : ℕ) (body : ℕ → Prog L V) (m : Mem V) :
    launch n body m = forallR n body m := launchG_eq le_rfl body m

end

variable {K : Type} [Field K] [LinearOrder K] [IsStrictOrderedRing K] {n m : ℕ}

/-! ## Element-wise operations -/

theorem C71_setToConstant (c : K) (x : ℕ → K) :
    setToConstantG n c x = .one (putBack (fun _ : Fin n => c) x) := C63_setToConstant c x

theorem C71_componentMult (v x : ℕ → K) :
    componentMultG n v x = .one (putBack (componentMult (asVec n x) (asVec n v)) x) :=
  C63_componentMult v x

theorem C71_copyFrom (v x : ℕ → K) : copyFromG n v x = .one (putBack (asVec n v) x) := by
  rw [copyFromG, transform]
  refine elem_one fun i hi => ⟨by within, ?_⟩
  simp [run, asVec]

theorem putBack_putBack (r s : RVec K n) (x : ℕ → K) : putBack r (putBack s x) = putBack r x := by
  funext i
  unfold putBack
  split_ifs <;> rfl

theorem asVec_putBack (r : RVec K n) (x : ℕ → K) : asVec n (putBack r x) = r := by
  funext i
  simp [asVec, putBack]

theorem C71_setToConstantSel (c : K) (sel x : ℕ → K) (h : IsPattern (asVec n sel)) :
    setToConstantSelG n c sel x = .one (putBack (setToConstantSel c (asVec n sel)) x) := by
  unfold setToConstantSelG
  rw [C71_setToConstant, Out.one_andThen, C71_componentMult, putBack_putBack, asVec_putBack]
  congr 2
  funext i
  rcases h i with h | h <;> simp [componentMult, setToConstantSel, h]

theorem C71_componentDiv (v x : ℕ → K) :
    componentDivG n v x = .one (putBack (componentDiv (asVec n x) (asVec n v)) x) :=
  C63_componentDiv v x

theorem C71_componentDivSel (v sel x : ℕ → K) (h : IsPattern (asVec n sel)) :
    componentDivSelG n v sel x
      = .one (putBack (componentDivSel (asVec n x) (asVec n v) (asVec n sel)) x) := by
  rw [componentDivSelG, launch_eq]
  refine elem_one fun i hi => ?_
  rcases h ⟨i, hi⟩ with h | h <;> simp_all [asVec, componentDivSel, run, Within]

theorem C71_componentMinC (c : K) (x : ℕ → K) :
    componentMinCG n c x = .one (putBack (componentMinC (asVec n x) c) x) := by
  rw [componentMinCG, launch_eq]
  refine elem_one fun i hi => ⟨by within, ?_⟩
  have : componentMinC (asVec n x) c ⟨i, hi⟩ = if x i < c then x i else c := by
    simp only [componentMinC, asVec]
    rcases lt_trichotomy (x i) c with h | h | h
    · simp [h, not_lt.2 h.le]
    · simp [h]
    · simp [h, not_lt.2 h.le]
  rw [this]
  simp only [run]
  split_ifs <;> rfl

theorem C71_componentMin (v x : ℕ → K) :
    componentMinG n v x = .one (putBack (componentMin (asVec n x) (asVec n v)) x) := by
  rw [componentMinG, launch_eq]
  refine elem_one fun i hi => ⟨by within, ?_⟩
  have : componentMin (asVec n x) (asVec n v) ⟨i, hi⟩ = if x i < v i then x i else v i := by
    simp only [componentMin, asVec]
    rcases lt_trichotomy (x i) (v i) with h | h | h
    · simp [h, not_lt.2 h.le]
    · simp [h]
    · simp [h, not_lt.2 h.le]
  rw [this]
  simp only [run]
  split_ifs <;> rfl

theorem C71_componentMaxC (c : K) (x : ℕ → K) :
    componentMaxCG n c x = .one (putBack (componentMaxC (asVec n x) c) x) := by
  rw [componentMaxCG, launch_eq]
  refine elem_one fun i hi => ⟨by within, ?_⟩
  have : componentMaxC (asVec n x) c ⟨i, hi⟩ = if x i > c then x i else c := by
    simp only [componentMaxC, asVec]
    rcases lt_trichotomy (x i) c with h | h | h
    · simp [h, not_lt.2 h.le]
    · simp [h]
    · simp [h, not_lt.2 h.le]
  rw [this]
  simp only [run]
  split_ifs <;> rfl

theorem C71_componentMax (v x : ℕ → K) :
    componentMaxG n v x = .one (putBack (componentMax (asVec n x) (asVec n v)) x) := by
  rw [componentMaxG, launch_eq]
  refine elem_one fun i hi => ⟨by within, ?_⟩
  have : componentMax (asVec n x) (asVec n v) ⟨i, hi⟩ = if x i > v i then x i else v i := by
    simp only [componentMax, asVec]
    rcases lt_trichotomy (x i) (v i) with h | h | h
    · simp [h, not_lt.2 h.le]
    · simp [h]
    · simp [h, not_lt.2 h.le]
  rw [this]
  simp only [run]
  split_ifs <;> rfl

theorem C71_componentAbs (x : ℕ → K) :
    componentAbsG n x = .one (putBack (componentAbs (asVec n x)) x) := C63_componentAbs x

theorem C71_componentSgn (x : ℕ → K) :
    componentSgnG n x = .one (putBack (componentSgn (asVec n x)) x) := C63_componentSgn x

theorem C71_componentSqrt (sqrt : K → K) (x : ℕ → K) :
    componentSqrtG sqrt n x = .one (putBack (fun i : Fin n => sqrt (x i)) x) :=
  C63_componentSqrt sqrt x

theorem C71_scale (c : K) (x : ℕ → K) :
    scaleG n c x = .one (putBack (Vec.scale (asVec n x) c) x) := by
  rw [scaleG, transform]
  refine elem_one fun i hi => ⟨by within, ?_⟩
  unfold Vec.scale
  split_ifs with h
  · simp [run, asVec, ← h]
  · simp [run, asVec]

theorem C71_axpy (a : K) (v x : ℕ → K) :
    axpyG n a v x = .one (putBack (Vec.axpy (asVec n x) a (asVec n v)) x) := C63_axpy a v x

theorem C71_axzpy (a : K) (x z y : ℕ → K) :
    axzpyG n a x z y = .one (putBack (axzpy (asVec n y) a (asVec n x) (asVec n z)) y) := by
  rw [axzpyG, launch_eq]
  refine elem_one fun i hi => ⟨by within, ?_⟩
  unfold axzpy
  split_ifs <;> simp_all [run, asVec, sub_eq_add_neg, add_comm]

theorem C71_axdzpy (a : K) (x z y : ℕ → K) :
    axdzpyG n a x z y = .one (putBack (axdzpy (asVec n y) a (asVec n x) (asVec n z)) y) := by
  rw [axdzpyG, launch_eq]
  refine elem_one fun i hi => ⟨by within, ?_⟩
  have : axdzpy (asVec n y) a (asVec n x) (asVec n z) ⟨i, hi⟩ = a * x i / z i + y i := by
    unfold axdzpy
    split_ifs with h1 h2 <;> simp [asVec, *] <;> ring
  simp [run, this]

theorem C71_axdzpySel (a : K) (x z sel y : ℕ → K) (h : IsPattern (asVec n sel)) :
    axdzpySelG n a x z sel y
      = .one (putBack (axdzpySel (asVec n y) a (asVec n x) (asVec n z) (asVec n sel)) y) := by
  rw [axdzpySelG, launch_eq]
  refine elem_one fun i hi => ⟨by within, ?_⟩
  rcases h ⟨i, hi⟩ with h | h
  · have h' : sel i = 0 := h
    have : axdzpySel (asVec n y) a (asVec n x) (asVec n z) (asVec n sel) ⟨i, hi⟩ = y i := by
      unfold axdzpySel
      split_ifs <;> simp_all [asVec]
    simp [run, this, h']
  · have h' : sel i = 1 := h
    have : axdzpySel (asVec n y) a (asVec n x) (asVec n z) (asVec n sel) ⟨i, hi⟩
        = a * x i / z i + y i := by
      unfold axdzpySel
      split_ifs <;> simp_all [asVec] <;> ring
    simp [run, this, h']

theorem C71_addConstant (c : K) (x : ℕ → K) :
    addConstantG n c x = .one (putBack (addConstant (asVec n x) c) x) := by
  rw [addConstantG, launch_eq]
  elem [addConstant]

theorem C71_addConstantSel (c : K) (sel x : ℕ → K) (h : IsPattern (asVec n sel)) :
    addConstantSelG n c sel x = .one (putBack (addConstantSel (asVec n x) c (asVec n sel)) x) := by
  rw [addConstantSelG, launch_eq]
  refine elem_one fun i hi => ⟨by within, ?_⟩
  rcases h ⟨i, hi⟩ with h | h <;> simp_all [asVec, addConstantSel, run]

theorem C71_negate (x : ℕ → K) : negateG n x = .one (putBack (negate (asVec n x)) x) := by
  rw [negateG, transform]
  refine elem_one fun i hi => ⟨by within, ?_⟩
  simp [run, asVec, negate]

theorem C71_invert (x : ℕ → K) : invertG n x = .one (putBack (fun i : Fin n => (x i)⁻¹) x) := by
  rw [invertG, launch_eq]
  refine elem_one fun i hi => ⟨by within, ?_⟩
  simp [run]

theorem C71_addLogBarrierGrad (a : K) (v sel x : ℕ → K) :
    addLogBarrierGradG n a v sel x
      = .one (putBack (addLogBarrierGrad (asVec n x) a (asVec n v) (asVec n sel)) x) := by
  rw [addLogBarrierGradG, launch_eq]
  refine elem_one fun i hi => ⟨by within, ?_⟩
  by_cases h : sel i = 1 <;> simp [run, asVec, addLogBarrierGrad, h, add_comm]

theorem C71_addLinearDampingTerm (ixl ixr : ℕ → K) (alpha ct : K) (x : ℕ → K) :
    addLinearDampingTermG n ixl ixr alpha ct x
      = .one (putBack (addLinearDampingTerm (asVec n x) (asVec n ixl) (asVec n ixr) alpha ct) x) := by
  rw [addLinearDampingTermG, launch_eq]
  refine elem_one fun i hi => ⟨by within, ?_⟩
  simp [run, asVec, addLinearDampingTerm, mul_comm ct]

theorem C71_selectPattern (sel x : ℕ → K) :
    selectPatternG n sel x = .one (putBack (selectPattern (asVec n x) (asVec n sel)) x) := by
  rw [selectPatternG, launch_eq]
  elem [selectPattern]

theorem C71_adjustDuals (x ix : ℕ → K) (mu kappa : K) (z : ℕ → K) :
    adjustDualsG n x ix mu kappa z
      = .one (putBack (adjustDualsPlh (asVec n z) (asVec n x) (asVec n ix) mu kappa) z) := by
  rw [adjustDualsG, launch_eq]
  refine elem_one fun i hi => ⟨by dsimp only; within, ?_⟩
  simp only [asVec, adjustDualsPlh, adjustDualComp]
  by_cases h1 : ix i = 1 <;> by_cases h2 : z i < mu / x i / kappa <;>
    by_cases h3 : mu / x i * kappa ≤ mu / x i / kappa <;>
    by_cases h4 : mu / x i * kappa < z i <;> simp only [h1, h2, h3, h4, run, if_true, if_false] <;>
    simp

/-! ### Copies and additions with a pattern -/

/-- **C71, copy with a pattern, as it is.** The elements that are not selected become zero. -/
theorem C71_copyFromSel_exact (v sel x : ℕ → K) (h : IsPattern (asVec n sel)) :
    copyFromSelG n v sel x
      = .one (putBack (fun i : Fin n => if sel i = 1 then v i else 0) x) := by
  unfold copyFromSelG
  rw [C71_copyFrom, Out.one_andThen, C71_componentMult, putBack_putBack, asVec_putBack]
  congr 2
  funext i
  rcases h i with h | h
  · have : sel i = 0 := h
    simp [componentMult, asVec, this]
  · have : sel i = 1 := h
    simp [componentMult, asVec, this]

/-- **C71, copy with a pattern (partial).** When the elements that are not selected are zero before the
call, the outcome is that of the host. -/
theorem C71_copyFromSel_partial (v sel x : ℕ → K) (h : IsPattern (asVec n sel))
    (h0 : ∀ i, i < n → sel i = 0 → x i = 0) :
    copyFromSelG n v sel x
      = .one (putBack (copyFromSel (asVec n x) (asVec n v) (asVec n sel)) x) := by
  rw [C71_copyFromSel_exact v sel x h]
  congr 2
  funext i
  rcases h i with h | h
  · have : sel i = 0 := h
    simp [copyFromSel, asVec, this, h0 i i.2 this]
  · have : sel i = 1 := h
    simp [copyFromSel, asVec, this]

/-- **C71, copy with a pattern, refuted.** Copying `(7, 8)` into `(1, 2)` with the pattern `(1, 0)`
gives `(7, 0)` on the device and `(7, 2)` on the host. -/
theorem C71_copyFromSel_refuted :
    copyFromSelG 2 (fun i => if i = 0 then (7 : ℚ) else 8) (fun i => if i = 0 then 1 else 0)
        (fun i => if i = 0 then 1 else 2)
      = .one (putBack ![7, 0] fun i => if i = 0 then 1 else 2) ∧
    copyFromSel (![1, 2] : RVec ℚ 2) ![7, 8] ![1, 0] = ![7, 2] := by
  constructor
  · rw [C71_copyFromSel_exact]
    · congr 2
      funext i
      fin_cases i <;> rfl
    · intro i
      fin_cases i
      · exact Or.inr rfl
      · exact Or.inl rfl
  · decide +kernel

/-- **C71, addition with a pattern, as it is.** -/
theorem C71_axpySel_exact (a : K) (v sel x : ℕ → K) (h : IsPattern (asVec n sel)) :
    axpySelG n a v sel x
      = .one (putBack (fun i : Fin n => if sel i = 1 then x i + a * v i else 0) x) := by
  unfold axpySelG
  rw [C71_axpy, Out.one_andThen, C71_componentMult, putBack_putBack, asVec_putBack]
  congr 2
  funext i
  rcases h i with h | h
  · have : sel i = 0 := h
    simp [componentMult, asVec, this]
  · have : sel i = 1 := h
    simp [componentMult, asVec, this, Vec.axpy]

/-- **C71, addition with a pattern (partial).** -/
theorem C71_axpySel_partial (a : K) (v sel x : ℕ → K) (h : IsPattern (asVec n sel))
    (h0 : ∀ i, i < n → sel i = 0 → x i = 0) :
    axpySelG n a v sel x
      = .one (putBack (axpySel (asVec n x) a (asVec n v) (asVec n sel)) x) := by
  rw [C71_axpySel_exact a v sel x h]
  congr 2
  funext i
  rcases h i with h | h
  · have : sel i = 0 := h
    simp [axpySel, asVec, this, h0 i i.2 this]
  · have : sel i = 1 := h
    simp [axpySel, asVec, this]

/-- **C71, addition with a pattern, refuted.** Relaxing the bounds `(1, 2)` of which only the first
exists: the value of the second is lost. -/
theorem C71_axpySel_refuted :
    axpySelG 2 (-1) (fun _ => (1 : ℚ)) (fun i => if i = 0 then 1 else 0)
        (fun i => if i = 0 then 1 else 2)
      = .one (putBack ![0, 0] fun i => if i = 0 then 1 else 2) ∧
    axpySel (![1, 2] : RVec ℚ 2) (-1) ![1, 1] ![1, 0] = ![0, 2] := by
  constructor
  · rw [C71_axpySel_exact]
    · congr 2
      funext i
      fin_cases i <;> simp
    · intro i
      fin_cases i
      · exact Or.inr rfl
      · exact Or.inl rfl
  · decide +kernel

/-! ### Arrays of types of variables -/

theorem C71_setArrayFrom (start stop : ℕ) (src : ℕ → ℕ) (startSrc : ℕ) (arr : ℕ → ℕ) :
    setArrayFromG n start stop src startSrc arr = setArrayFromV n start stop src startSrc arr := by
  unfold setArrayFromG setArrayFromV
  by_cases h : stop ≤ n ∧ start ≤ stop
  · rw [Out.check_pos h, Out.check_pos h, launchG_eq (min_le_left _ _), min_eq_right (by omega)]
  · rw [Out.check_neg h, Out.check_neg h]

/-- **C71, constant types (partial).** For a type other than 0. -/
theorem C71_setArrayConst_partial (start stop c : ℕ) (arr : ℕ → ℕ) (hc : c ≠ 0)
    (h : stop ≤ n ∧ start ≤ stop) :
    setArrayConstG n start stop c arr
      = .one fun i => if start ≤ i ∧ i < stop then c else arr i := by
  unfold setArrayConstG
  rw [Out.check_pos hc, Out.check_pos h, launchG_eq (min_le_left _ _), min_eq_right (by omega)]
  split_ifs with h0
  · congr 1
    funext i
    rw [if_neg (by omega)]
  · refine forallR_wr _ (fun i => start + i) (fun i j _ _ e => by omega) (fun i hi => ?_)
      fun l hl => ?_
    · rw [if_pos (by omega)]
    · rw [if_neg]
      rintro ⟨h1, h2⟩
      exact hl (l - start) (by omega) (by omega)

/-- **C71, constant types, refuted.** Marking variables as linear (type 0) ends the program. -/
theorem C71_setArrayConst_refuted (start stop : ℕ) (arr : ℕ → ℕ) :
    setArrayConstG n start stop 0 arr = .abort := Out.check_neg (by simp) _

/-! ## Reductions -/

theorem sumR_one {α : Type} [AddCommMonoid α] (f : ℕ → α) : sumR n f = {∑ i : Fin n, f i} := by
  ext a
  have hs : (0 :: (List.range n).map f).foldr (· + ·) 0 = ∑ i : Fin n, f i := by
    rw [List.foldr_cons, zero_add, ← List.sum_eq_foldr, ← Finset.sum_range f]
    rfl
  rw [Set.mem_singleton_iff]
  constructor
  · intro h
    rw [← hs]
    exact combines_eq (fun _ => True) trivial (fun _ _ _ _ => trivial) add_comm add_assoc
      (fun a _ => zero_add a) h fun _ _ => trivial
  · rintro rfl
    rw [← hs]
    exact combines_exists _ _ _

theorem temp_one {α : Type} (f junk : ℕ → α) :
    tempG n f junk = .one fun i => if i < n then f i else junk i := by
  rw [tempG, launch_eq]
  refine forallR_wr _ (fun i => i) (fun i j _ _ e => e) (fun i hi => ?_) fun l hl => ?_
  · rw [if_pos hi]
  · rw [if_neg fun h => hl l h rfl]

/-- The minimum over a vector that is not empty does not depend on the order. -/
theorem minElem_one (hn : 0 < n) (f : ℕ → K) :
    ∃ r, minElem n f = .one r ∧ (∀ i, i < n → r ≤ f i) ∧ ∃ i, i < n ∧ r = f i := by
  have key : ∀ (l : List K) (a : K), Combines min (f 0) l a →
      (∀ x ∈ l, a ≤ x) ∧ (a ∈ l ∨ a = f 0) := by
    intro l a h
    induction h with
    | neutral => simp
    | single a => simp
    | node _ _ h1 h2 =>
      refine ⟨fun x hx => ?_, ?_⟩
      · rcases List.mem_append.1 hx with hx | hx
        · exact (min_le_left _ _).trans (h1.1 x hx)
        · exact (min_le_right _ _).trans (h2.1 x hx)
      · rcases min_choice (α := K) (a := _) (b := _) with e | e
        · rw [e, List.mem_append]
          exact h1.2.imp Or.inl fun h => h
        · rw [e, List.mem_append]
          exact h2.2.imp Or.inr fun h => h
    | perm hp _ ih =>
      exact ⟨fun x hx => ih.1 x (hp.mem_iff.2 hx), ih.2.imp hp.mem_iff.1 fun h => h⟩
  have char : ∀ r, Combines min (f 0) ((List.range n).map f) r →
      (∀ i, i < n → r ≤ f i) ∧ ∃ i, i < n ∧ r = f i := by
    intro r hr
    obtain ⟨h1, h2⟩ := key _ _ hr
    refine ⟨fun i hi => h1 _ (List.mem_map.2 ⟨i, List.mem_range.2 hi, rfl⟩), ?_⟩
    rcases h2 with h2 | h2
    · obtain ⟨i, hi, e⟩ := List.mem_map.1 h2
      exact ⟨i, List.mem_range.1 hi, e.symm⟩
    · exact ⟨0, hn, h2⟩
  have hex := combines_exists min (f 0) ((List.range n).map f)
  refine ⟨_, ?_, char _ hex⟩
  unfold minElem
  rw [if_neg (by omega), ← ofSet_one]
  congr 1
  ext a
  rw [Set.mem_singleton_iff]
  constructor
  · intro h
    obtain ⟨h1, i, hi, h2⟩ := char a h
    obtain ⟨h3, j, hj, h4⟩ := char _ hex
    refine le_antisymm ?_ ?_
    · rw [h4]; exact h1 j hj
    · rw [h2]; exact h3 i hi
  · rintro rfl
    exact hex

theorem minElem_congr {f g : ℕ → K} (h : ∀ i, i < n → f i = g i) : minElem n f = minElem n g := by
  unfold minElem
  by_cases hn : n = 0
  · rw [if_pos hn, if_pos hn]
  · rw [if_neg hn, if_neg hn, h 0 (by omega),
      List.map_congr_left fun i hi => h i (List.mem_range.1 hi)]

theorem C71_dot (x v : ℕ → K) : dotG n x v = {dot (asVec n x) (asVec n v)} := by
  rw [dotG, sumR_one, dot_eq_sum]
  congr 1
  exact Finset.sum_congr rfl fun i _ => mul_comm _ _

theorem C71_twonorm (sqrt : K → K) (h0 : sqrt 0 = 0) (x : ℕ → K) :
    twonormG sqrt n x = {sqrt (∑ i : Fin n, x i ^ 2)} := by
  unfold twonormG
  split_ifs with h
  · rw [sumR_one, Set.image_singleton]
    simp [pow_two]
  · have : n = 0 := by omega
    subst this
    simp [h0]

theorem C71_infnorm (x : ℕ → K) : infnormG n x = {infnorm (asVec n x)} := by
  rw [← C63_infnorm]
  simp [infnormG, infnormV, reduceMax, List.filterMap_eq_map']

theorem C71_onenorm (x : ℕ → K) : onenormG n x = {onenorm (asVec n x)} := by
  rw [onenormG, sumR_one, onenorm_eq_sum]; rfl

theorem C71_sum (x : ℕ → K) : sumG n x = {sumLocal (asVec n x)} := by
  rw [sumG, sumR_one, sumLocal_eq_sum]; rfl

theorem C71_linearDampingTerm (junk x ixl ixr : ℕ → K) (mu kappad : K) :
    linearDampingTermG n junk x ixl ixr mu kappad
      = .one (linearDampingTermLocal (asVec n x) (asVec n ixl) (asVec n ixr) mu kappad) := by
  unfold linearDampingTermG
  rw [temp_one, Out.one_andThen, sumR_one, Set.image_singleton, ofSet_one]
  have h := C63_linearDampingTerm (n := n) x ixl ixr mu kappad
  rw [linearDampingTermV, reduceSum_one, filterMap_sum, Set.image_singleton] at h
  rw [← Set.singleton_injective h]
  congr 3
  refine Finset.sum_congr rfl fun i _ => ?_
  rw [if_pos i.2]
  split_ifs <;> rfl

/-- **C71, minimum (partial).** For a vector that is not empty. -/
theorem C71_min_partial (dblMax : K) (x : ℕ → K) (hn : 0 < n) (hm : ∀ i, i < n → x i ≤ dblMax) :
    minAllG n x = .one (minAll dblMax (asVec n x)) := by
  obtain ⟨r, e, h1, i, hi, h2⟩ := minElem_one hn x
  obtain ⟨a, b, c⟩ := minAll_char dblMax (asVec n x)
  rw [minAllG, e]
  congr 1
  apply le_antisymm
  · rcases c with c | ⟨j, c⟩
    · rw [c, h2]; exact hm i hi
    · rw [c]; exact h1 j j.2
  · rw [h2]; exact b ⟨i, hi⟩

/-- **C71, minimum with a pattern (partial).** -/
theorem C71_minSel_partial (junk : ℕ → K) (dblMax : K) (x sel : ℕ → K) (hn : 0 < n)
    (hm : ∀ i, i < n → x i ≤ dblMax) :
    minSelG n junk dblMax x sel = .one (minSel dblMax (asVec n x) (asVec n sel)) := by
  unfold minSelG
  rw [temp_one, Out.one_andThen]
  obtain ⟨r, e, h1, i, hi, h2⟩ := minElem_one hn
    fun i => if i < n then (if sel i = 1 then x i else dblMax) else junk i
  obtain ⟨a, b, c⟩ := minSel_char dblMax (asVec n x) (asVec n sel)
  rw [e]
  congr 1
  simp only [if_pos hi] at h2
  apply le_antisymm
  · rcases c with c | ⟨j, hj, c⟩
    · rw [c, h2]
      split_ifs
      · exact hm i hi
      · exact le_rfl
    · rw [c]
      have := h1 j j.2
      have hj' : sel j = 1 := hj
      rwa [if_pos j.2, if_pos hj'] at this
  · rw [h2]
    split_ifs with hs
    · exact b ⟨i, hi⟩ hs
    · exact a

/-- **C71, positivity (partial).** For a vector that is not empty. -/
theorem C71_allPositive_partial (x : ℕ → K) (hn : 0 < n) :
    allPositiveG n x = .one (allPositive (asVec n x)) := by
  obtain ⟨r, e, h1, i, hi, h2⟩ := minElem_one hn x
  rw [allPositiveG, e, Out.one_andThen]
  congr 1
  rw [Bool.eq_iff_iff, allPositive_iff, decide_eq_true_iff]
  exact ⟨fun h j => lt_of_lt_of_le h (h1 j j.2), fun h => h2 ▸ h ⟨i, hi⟩⟩

/-- **C71, empty vectors, refuted.** On an empty vector the device reads the element behind the end of
the array; the host returns the largest number, that all elements are positive, the full step and
success. -/
theorem C71_empty_refuted (junk x d sel : ℕ → K) (dblMax tau small k1 k2 : K) :
    (minAllG 0 x = .abort ∧ minAll dblMax (asVec 0 x) = dblMax) ∧
    (minSelG 0 junk dblMax x sel = .abort ∧ minSel dblMax (asVec 0 x) (asVec 0 sel) = dblMax) ∧
    (allPositiveG 0 x = .abort ∧ allPositive (asVec 0 x) = true) ∧
    (fractionToBdryG 0 junk x d tau = .abort ∧ fractionToBdry (asVec 0 x) (asVec 0 d) tau = 1) ∧
    (fractionToBdrySelG 0 junk x d tau sel = .abort ∧
      fractionToBdrySel (asVec 0 x) (asVec 0 d) tau (asVec 0 sel) = 1) ∧
    (projectG 0 small k1 k2 x sel d sel x = .abort ∧
      (projectIntoBounds small k1 k2 (asVec 0 x) (asVec 0 x) (asVec 0 sel) (asVec 0 d)
        (asVec 0 sel)).1 = true) := by
  refine ⟨⟨rfl, rfl⟩, ⟨?_, rfl⟩, ⟨?_, ?_⟩, ⟨?_, rfl⟩, ⟨?_, rfl⟩, ⟨?_, ?_⟩⟩
  · unfold minSelG; rw [temp_one, Out.one_andThen]; rfl
  · unfold allPositiveG minElem; rw [if_pos rfl, Out.abort_andThen]
  · rw [allPositive_iff]; exact fun i => i.elim0
  · unfold fractionToBdryG; rw [temp_one, Out.one_andThen]; rfl
  · unfold fractionToBdrySelG; rw [temp_one, Out.one_andThen]; rfl
  · unfold projectG minElem; rw [if_pos rfl, Out.abort_andThen]
  · rw [projectIntoBounds_true_iff]; exact fun i => i.elim0

/-- **C71, positivity with a pattern, as it is.** The answer is yes iff all elements are selected and
positive. -/
theorem C71_allPositiveSel_exact (junk : ℕ → ℕ) (x sel : ℕ → K) :
    allPositiveSelG n junk x sel = .one (decide (∀ i : Fin n, sel i = 1 ∧ 0 < x i)) := by
  unfold allPositiveSelG
  rw [temp_one, Out.one_andThen, sumR_one, Set.image_singleton, ofSet_one]
  congr 1
  rw [Bool.eq_iff_iff, decide_eq_true_iff, decide_eq_true_iff]
  have e : (∑ i : Fin n, if (i : ℕ) < n then (if sel i = 1 ∧ x i > 0 then 1 else 0) else junk i)
      = (Finset.univ.filter fun i : Fin n => sel i = 1 ∧ x i > 0).card := by
    rw [Finset.card_filter]
    exact Finset.sum_congr rfl fun i _ => if_pos i.2
  rw [e]
  constructor
  · intro h i
    have h1 : (Finset.univ.filter fun i : Fin n => sel i = 1 ∧ x i > 0) = Finset.univ :=
      Finset.eq_univ_of_card _ (by rw [h, Fintype.card_fin])
    have : i ∈ (Finset.univ.filter fun i : Fin n => sel i = 1 ∧ x i > 0) := by
      rw [h1]; exact Finset.mem_univ i
    exact (Finset.mem_filter.1 this).2
  · intro h
    rw [Finset.filter_true_of_mem fun i _ => h i, Finset.card_univ, Fintype.card_fin]

/-- **C71, positivity with a pattern (partial).** When every element is selected. -/
theorem C71_allPositiveSel_partial (junk : ℕ → ℕ) (x sel : ℕ → K) (h : ∀ i, i < n → sel i = 1) :
    allPositiveSelG n junk x sel = .one (allPositiveSel (asVec n x) (asVec n sel)) := by
  rw [C71_allPositiveSel_exact]
  congr 1
  rw [Bool.eq_iff_iff, allPositiveSel_iff, decide_eq_true_iff]
  refine forall_congr' fun i => ?_
  simp [asVec, h i i.2]

/-- **C71, positivity with a pattern, refuted.** One element that is not selected makes the answer no,
for all values; a vector of positive numbers is an example in which the host says yes. -/
theorem C71_allPositiveSel_refuted (junk : ℕ → ℕ) :
    (∀ (x sel : ℕ → K) (i : ℕ), i < n → sel i = 0 → allPositiveSelG n junk x sel = .one false) ∧
    allPositiveSel (![3, 4] : RVec ℚ 2) ![1, 0] = true := by
  constructor
  · intro x sel i hi hs
    rw [C71_allPositiveSel_exact]
    congr 1
    rw [decide_eq_false_iff_not]
    intro h
    have := (h ⟨i, hi⟩).1
    simp [hs] at this
  · decide +kernel

/-! ### Steps to the boundary -/

/-- **C71, step to the boundary, as it is.** For a vector that is not empty the result, cut off at 1,
is the step of the host (the greatest admissible one by C03); with an element that does not decrease
or is not selected it is the step of the host. -/
theorem C71_fractionToBdrySel_partial (junk x d : ℕ → K) (tau : K) (sel : ℕ → K) (hn : 0 < n) :
    ∃ r, fractionToBdrySelG n junk x d tau sel = .one r ∧
      min 1 r = fractionToBdrySel (asVec n x) (asVec n d) tau (asVec n sel) ∧
      ((∃ i, i < n ∧ (0 ≤ d i ∨ sel i = 0)) →
        r = fractionToBdrySel (asVec n x) (asVec n d) tau (asVec n sel)) := by
  unfold fractionToBdrySelG
  rw [temp_one, Out.one_andThen]
  obtain ⟨r, e, h1, i, hi, h2⟩ := minElem_one hn
    fun i => if i < n then (if d i ≥ 0 ∨ sel i = 0 then 1 else -tau * x i / d i) else junk i
  obtain ⟨a, b, c⟩ := fractionToBdrySel_char (asVec n x) (asVec n d) tau (asVec n sel)
  have hmin : min 1 r = fractionToBdrySel (asVec n x) (asVec n d) tau (asVec n sel) := by
    apply le_antisymm
    · rcases c with c | ⟨j, hd, hp, c⟩
      · rw [c]; exact min_le_left _ _
      · rw [c]
        refine (min_le_right _ _).trans ?_
        have := h1 j j.2
        have hd' : ¬ (d j ≥ 0 ∨ sel j = 0) := by
          rintro (h | h)
          · exact absurd hd (not_lt.2 h)
          · exact hp h
        rwa [if_pos j.2, if_neg hd'] at this
    · refine le_min a ?_
      rw [h2]
      simp only [if_pos hi]
      split_ifs with hs
      · exact a
      · rw [not_or] at hs
        exact b ⟨i, hi⟩ (not_le.1 hs.1) hs.2
  refine ⟨r, e, hmin, ?_⟩
  rintro ⟨j, hj, hs⟩
  have : r ≤ 1 := by
    have := h1 j hj
    rwa [if_pos hj, if_pos hs] at this
  rw [← hmin, min_eq_right this]

theorem C71_fractionToBdry_partial (junk x d : ℕ → K) (tau : K) (hn : 0 < n) :
    ∃ r, fractionToBdryG n junk x d tau = .one r ∧
      min 1 r = fractionToBdry (asVec n x) (asVec n d) tau ∧
      ((∃ i, i < n ∧ 0 ≤ d i) → r = fractionToBdry (asVec n x) (asVec n d) tau) := by
  obtain ⟨r, h1, h2, h3⟩ := C71_fractionToBdrySel_partial junk x d tau (fun _ => (1 : K)) hn
  rw [fractionToBdry_eq]
  refine ⟨r, ?_, h2, fun ⟨i, hi, hd⟩ => h3 ⟨i, hi, Or.inl hd⟩⟩
  rw [← h1]
  simp [fractionToBdryG, fractionToBdrySelG]

/-- **C71, step to the boundary, refuted.** From 10 in the direction -1, with `tau = 1/2`, the device
returns the step 5; the host returns the full step 1. -/
theorem C71_fractionToBdry_refuted (junk : ℕ → ℚ) :
    fractionToBdryG 1 junk (fun _ => 10) (fun _ => -1) (1 / 2) = .one 5 ∧
    fractionToBdrySelG 1 junk (fun _ => 10) (fun _ => -1) (1 / 2) (fun _ => 1) = .one 5 ∧
    fractionToBdry (![10] : RVec ℚ 1) ![-1] (1 / 2) = 1 := by
  have key : minElem 1 (fun i => if i < 1 then (5 : ℚ) else junk i) = .one 5 := by
    obtain ⟨r, e, h1, i, hi, h2⟩ := minElem_one (n := 1) (by norm_num)
      (fun i => if i < 1 then (5 : ℚ) else junk i)
    rw [e, h2, if_pos hi]
  refine ⟨?_, ?_, by decide +kernel⟩
  · unfold fractionToBdryG
    rw [temp_one, Out.one_andThen, ← key]
    refine minElem_congr fun i hi => ?_
    norm_num [hi]
  · unfold fractionToBdrySelG
    rw [temp_one, Out.one_andThen, ← key]
    refine minElem_congr fun i hi => ?_
    norm_num [hi]

/-! ### Barrier -/

/-- **C71, barrier (partial).** When the selected elements are positive, as they are at every iterate
(C04), the result is that of the host. -/
theorem C71_logBarrier_partial (log : K → K) (x sel : ℕ → K) (h : IsPattern (asVec n sel))
    (hp : ∀ i, i < n → sel i = 1 → 0 < x i) :
    logBarrierG log n x sel = {∑ i : Fin n, if sel i = 1 then log (x i) else 0} := by
  rw [logBarrierG, sumR_one]
  congr 1
  refine Finset.sum_congr rfl fun i _ => ?_
  rcases h i with h0 | h0
  · have h1 : sel i = 0 := h0
    simp [h1]
  · have h1 : sel i = 1 := h0
    simp [h1, hp i i.2 h1]

/-- **C71, barrier, refuted.** Selected elements that are not positive contribute nothing, where the
host adds what the logarithm of the library returns (`-inf` or `nan`). -/
theorem C71_logBarrier_refuted (log : K → K) (h : log (-1) ≠ 0) :
    logBarrierG log 1 (fun _ => -1) (fun _ => 1) = {0} ∧
      (∑ _i : Fin 1, if (1 : K) = 1 then log (-1) else 0) ≠ 0 := by
  constructor
  · rw [logBarrierG, sumR_one]
    have : ¬ (-1 : K) * 1 > 0 := by simp [zero_le_one]
    simp [zero_le_one]
  · simpa using h

/-! ### Tests and counts -/

theorem all_range (p : ℕ → Bool) :
    (List.range n).all p = decide (∀ i : Fin n, p i = true) := by
  rw [Bool.eq_iff_iff, List.all_eq_true, decide_eq_true_iff]
  exact ⟨fun h i => h i (List.mem_range.2 i.2), fun h i hi => h ⟨i, List.mem_range.1 hi⟩⟩

theorem C71_matchesPattern (junk : ℕ → ℕ) (x sel : ℕ → K) :
    matchesPatternG n junk x sel = .one (matchesPattern (asVec n x) (asVec n sel)) := by
  unfold matchesPatternG
  rw [temp_one, Out.one_andThen, all_range]
  congr 1
  rw [Bool.eq_iff_iff, matchesPattern_iff, decide_eq_true_iff]
  refine forall_congr' fun i => ?_
  by_cases h1 : x i = 0 <;> by_cases h2 : sel i = 0 <;> simp [asVec, h1, h2]

theorem C71_isZero (x : ℕ → K) : isZeroG n x = decide (∀ i : Fin n, x i = 0) := by
  rw [isZeroG, all_range]
  simp

theorem C71_any (bad : K → Bool) (x : ℕ → K) :
    anyG bad n x = decide (∃ i : Fin n, bad (x i) = true) := by
  rw [Bool.eq_iff_iff, anyG, List.any_eq_true, decide_eq_true_iff]
  exact ⟨fun ⟨i, hi, h⟩ => ⟨⟨i, List.mem_range.1 hi⟩, h⟩,
    fun ⟨i, h⟩ => ⟨i, List.mem_range.2 i.2, h⟩⟩

theorem C71_isFinite (fin : K → Bool) (x : ℕ → K) :
    isFiniteG fin n x = decide (∀ i : Fin n, fin (x i) = true) := all_range _

theorem C71_numLessThan (x : ℕ → K) (v : K) : numLessThanG n x v = {numLessThan (asVec n x) v} := by
  rw [numLessThanG, sumR_one, numLessThan_eq, Finset.card_filter]
  rfl

theorem C71_numAbsLessThan (x : ℕ → K) (v : K) :
    numAbsLessThanG n x v = {numAbsLessThan (asVec n x) v} := by
  have : numAbsLessThan (asVec n x) v = numLessThan (asVec n fun i => |x i|) v := rfl
  rw [this, ← C71_numLessThan]
  rfl

/-! ## Projection into the bounds -/

/-- **C71, projection (partial).** For a vector that is not empty: when the lower bound is below the
upper one at every index, whether the bounds exist or not, the outcome is that of the host and the
host succeeds; when at some index it is not, the result is false and the vector unchanged. -/
theorem C71_project_partial (small k1 k2 : K) (xl ixl xu ixu x : ℕ → K) (hn : 0 < n) :
    let r := projectIntoBounds small k1 k2 (asVec n x) (asVec n xl) (asVec n ixl) (asVec n xu)
      (asVec n ixu)
    ((∀ i, i < n → xl i < xu i) →
      r.1 = true ∧ projectG n small k1 k2 xl ixl xu ixu x = .one (true, putBack r.2 x)) ∧
    ((∃ i, i < n ∧ xu i ≤ xl i) → projectG n small k1 k2 xl ixl xu ixu x = .one (false, x)) := by
  intro r
  obtain ⟨q, e, h1, i, hi, h2⟩ := minElem_one hn fun i => xu i - xl i
  unfold projectG
  rw [e, Out.one_andThen]
  constructor
  · intro h
    have hr : r.1 = true := by
      rw [projectIntoBounds_true_iff]
      intro j
      obtain ⟨v, hv, _⟩ := project_body small k1 k2 (xl j) (ixl j) (xu j) (ixu j) j x
        fun _ => (h j j.2).le
      exact Option.isSome_iff_exists.2 ⟨v, hv⟩
    refine ⟨hr, ?_⟩
    rw [if_pos (by rw [h2]; exact sub_pos.2 (h i hi)), launch_eq, elem_one (r := r.2),
      Out.one_andThen]
    intro j hj
    refine ⟨?_, ?_⟩
    · unfold projBody
      within
    · obtain ⟨v, hv, hv'⟩ := project_body small k1 k2 (xl j) (ixl j) (xu j) (ixu j) j x
        fun _ => (h j hj).le
      have := projectIntoBounds_comp small k1 k2 (asVec n x) (asVec n xl) (asVec n ixl) (asVec n xu)
        (asVec n ixu) hr ⟨j, hj⟩
      simp only [asVec] at this
      rw [hv] at this
      rw [hv', Option.some.inj this]
  · rintro ⟨j, hj, hle⟩
    rw [if_neg]
    have := h1 j hj
    linarith

/-- **C71, projection, refuted.** With equal bounds, and with an absent upper bound whose value is
below the lower bound, the device reports failure; the host projects. -/
theorem C71_project_refuted (small : ℚ) :
    (projectG 1 small 0 0 (fun _ => 1) (fun _ => 1) (fun _ => 1) (fun _ => 1) (fun _ => 5)
        = .one (false, fun _ => 5) ∧
      (projectIntoBounds small 0 0 (asVec 1 fun _ => 5) (asVec 1 fun _ => 1) (asVec 1 fun _ => 1)
        (asVec 1 fun _ => (1 : ℚ)) (asVec 1 fun _ => 1)).1 = true) ∧
    (projectG 1 small 0 0 (fun _ => 1) (fun _ => 1) (fun _ => 0) (fun _ => 0) (fun _ => 5)
        = .one (false, fun _ => 5) ∧
      (projectIntoBounds small 0 0 (asVec 1 fun _ => 5) (asVec 1 fun _ => 1) (asVec 1 fun _ => 1)
        (asVec 1 fun _ => (0 : ℚ)) (asVec 1 fun _ => 0)).1 = true) := by
  refine ⟨⟨?_, ?_⟩, ?_, ?_⟩
  · exact (C71_project_partial small 0 0 _ _ _ _ _ (by norm_num)).2 ⟨0, by norm_num, le_rfl⟩
  · rw [projectIntoBounds_true_iff]
    intro i
    obtain ⟨v, hv, _⟩ := project_body small 0 0 1 1 1 1 i (fun _ => (5 : ℚ)) fun _ => le_rfl
    exact Option.isSome_iff_exists.2 ⟨v, hv⟩
  · exact (C71_project_partial small 0 0 _ _ _ _ _ (by norm_num)).2 ⟨0, by norm_num, by norm_num⟩
  · rw [projectIntoBounds_true_iff]
    intro i
    simp [projComp, asVec]

/-! ## Copies -/

section
variable {K : Type}
open Hiop.Range

theorem C71_copyFromStarting (x : RVec K n) (start : ℕ) (v : RVec K m) :
    copyFromStartingG x start v = copyFromStarting x start v := by
  unfold copyFromStartingG copyFromStarting
  split_ifs <;> rfl

theorem C71_startingAtCopyFrom (x : RVec K n) (sd : ℤ) (v : RVec K m) (ss : ℤ) :
    startingAtCopyFromG x sd v ss = startingAtCopyFromStartingAt x sd v ss := by
  rw [← C63_startingAtCopyFrom]
  rfl

theorem C71_copyToStarting (x : RVec K n) (start : ℕ) (v : RVec K m) :
    copyToStartingG x start v = copyToStarting x start v := C63_copyToStarting x start v

theorem C71_copyToStartingDest (x : RVec K n) (dest : RVec K m) (start : ℕ) :
    copyToStartingDestG x dest start = copyToStartingGlobal x dest start :=
  C63_copyToStartingDest x dest start

theorem C71_startingAtCopyTo (x : RVec K n) (ss : ℤ) (dest : RVec K m) (sd num : ℤ) :
    startingAtCopyToG x ss dest sd num = startingAtCopyTo x ss dest sd num := by
  rw [← C63_startingAtCopyTo]
  rfl

/-- **C71, unpacking, refuted.** The devices have no unpacking; the host succeeds. -/
theorem C71_unpack_refuted [One K] [DecidableEq K] (x : RVec K n) (ss : ℕ) (dest sel : RVec K m)
    (hs : ss ≤ n) :
    unpackToG x ss dest 0 sel (-1) = none ∧ ∃ y, unpackTo x ss dest 0 sel (-1) = some y := by
  obtain ⟨y, h, _⟩ := C56_unpack x ss dest sel hs
  exact ⟨rfl, y, h⟩

/-- **C71, copy from a position of an array (partial).** When as many elements are copied as the
vector has, and it has some. -/
theorem C71_copyFromStartingAt_partial (x : RVec K n) (v : RVec K m) (start : ℕ) (hn : 0 < n) :
    copyFromStartingAtG x v start n = copyFromStartingAtHost x v start n := by
  unfold copyFromStartingAtG copyFromStartingAtHost
  rw [if_pos hn, if_pos rfl]

end

/-! ## Indexed copies -/

/-- **C71, gathering.** -/
theorem C71_copyFromIndexes (nv : ℕ) (v : ℕ → K) (idx : ℕ → ℕ) (x : ℕ → K)
    (h : ∀ i, i < n → idx i < nv) :
    ∃ y, Range.copyFromIndexes (asVec n x) (asVec nv v) (fun i => (idx i : ℤ)) = some y ∧
      copyFromIndexesG n nv v (fun i => idx i) x = .one (putBack y x) := by
  refine ⟨_, Range.C56_copyFromIndexes (asVec n x) (asVec nv v) fun i => ⟨idx i, h i i.2⟩, ?_⟩
  rw [copyFromIndexesG, launch_eq]
  refine elem_one fun i hi => ?_
  have h1 : (0 : ℤ) ≤ (idx i : ℕ) ∧ ((idx i : ℕ) : ℤ) < nv :=
    ⟨by omega, by exact_mod_cast h i hi⟩
  simp only [assertP, if_pos h1]
  exact ⟨by within, by simp [run, asVec]⟩

/-- **C71, merging.** -/
theorem C71_copyFromTwo (n1 n2 : ℕ) (c : ℕ → K) (cMap : ℕ → ℕ) (d : ℕ → K) (dMap : ℕ → ℕ)
    (x : ℕ → K) (hsz : n1 + n2 = n) (hc : ∀ i, i < n1 → cMap i < n) (hd : ∀ i, i < n2 → dMap i < n)
    (ic : ∀ i j, i < n1 → j < n1 → cMap i = cMap j → i = j)
    (id : ∀ i j, i < n2 → j < n2 → dMap i = dMap j → i = j)
    (hcd : ∀ i j, i < n1 → j < n2 → cMap i ≠ dMap j) :
    ∃ M, copyFromTwoG n n1 n2 c cMap d dMap x = .one M ∧ (∀ i, i < n1 → M (cMap i) = c i) ∧
      (∀ i, i < n2 → M (dMap i) = d i) ∧
      ∀ l, (∀ i, i < n1 → cMap i ≠ l) → (∀ i, i < n2 → dMap i ≠ l) → M l = x l := by
  obtain ⟨M1, e1, a1, b1⟩ := forallR_scatter (n := n) cMap c x ic hc
  obtain ⟨M2, e2, a2, b2⟩ := forallR_scatter (n := n) dMap d M1 id hd
  refine ⟨M2, ?_, fun i hi => ?_, a2, fun l h1 h2 => ?_⟩
  · unfold copyFromTwoG
    rw [Out.check_pos hsz, launch_eq, e1, Out.one_andThen, launch_eq, e2]
  · rw [b2 _ fun j hj => (hcd i j hi hj).symm, a1 i hi]
  · rw [b2 l h2, b1 l h1]

/-- **C71, splitting.** -/
theorem C71_copyToTwo (n1 n2 : ℕ) (x : ℕ → K) (cMap dMap : ℕ → ℕ) (c d : ℕ → K) (hsz : n1 + n2 = n)
    (hc : ∀ i, i < n1 → cMap i < n) (hd : ∀ i, i < n2 → dMap i < n) :
    copyToTwoG n n1 n2 x cMap dMap c d
      = .one (putBack (fun i : Fin n1 => x (cMap i)) c, putBack (fun i : Fin n2 => x (dMap i)) d) := by
  have key : ∀ (k : ℕ) (f : ℕ → ℕ) (y : ℕ → K), (∀ i, i < k → f i < n) →
      copyToOneG n k x f y = .one (putBack (fun i : Fin k => x (f i)) y) := by
    intro k f y h
    rw [copyToOneG, launch_eq]
    refine elem_one fun i hi => ?_
    rw [assertP, if_pos (h i hi)]
    exact ⟨by within, rfl⟩
  unfold copyToTwoG
  rw [Out.check_pos hsz, key _ _ _ hc, Out.one_andThen, key _ _ _ hd, Out.one_andThen]

/-! ## Packing -/

theorem cusum_eq (sel : ℕ → K) (junk : ℕ → ℕ) : cusumG n sel junk = patternScan n sel junk := by
  unfold cusumG patternScan
  rw [launch_eq]

theorem packIndex_eq (junk : ℕ → ℕ) (cumsum : Option (ℕ → ℕ)) (sel : ℕ → K) :
    packIndexG n junk cumsum sel = packIndexV n junk cumsum sel := by
  cases cumsum with
  | none => exact cusum_eq sel junk
  | some a => rfl

theorem packStore_eq (nv : ℕ) (a : ℕ → ℕ) (x v : ℕ → K) (start : ℕ) (sel : ℕ → K)
    (hv : ∀ i, i ≤ n → a i = selBelow sel i) :
    packStoreG n nv a x start v = packStoreV n nv a x start v := by
  unfold packStoreG packStoreV
  rw [launch_eq]
  refine forallR_congr (fun i hi => ?_) v
  have : a (i + 1) ≠ a i → a (i + 1) = a i + 1 := by
    rw [hv i hi.le, hv (i + 1) hi, selBelow_succ]
    split_ifs <;> simp
  by_cases h : a (i + 1) ≠ a i
  · rw [if_pos h, if_pos h, assertP, assertP, if_pos (this h)]
  · rw [if_neg h, if_neg h]

/-- **C71, packing (partial).** As long as a vector is packed with one pattern, every call stores what
the host stores, and the vector stays in a state in which this is so. -/
theorem C71_pack_partial (nv : ℕ) (junk : ℕ → ℕ) (cumsum : Option (ℕ → ℕ)) (x v : ℕ → K) (start : ℕ)
    (sel : ℕ → K) (h : IsPattern (asVec n sel)) (hc : Cached n sel cumsum)
    (hfit : start + Range.count (asVec n sel) ≤ nv) :
    ∃ y c', Range.packTo (asVec n x) (asVec nv v) start (asVec n sel) = some y ∧
      packToG n nv junk cumsum x v start sel = .one (putBack y v, c') ∧ Cached n sel c' := by
  obtain ⟨y, c', h1, h2, h3⟩ := C63_pack_partial nv junk cumsum x v start sel h hc hfit
  refine ⟨y, c', h1, ?_, h3⟩
  rw [← h2]
  unfold packToG packToV
  by_cases hn : n = 0
  · rw [if_pos hn, if_pos hn]
  rw [if_neg hn, if_neg hn, packIndex_eq]
  obtain ⟨a, ha, hv⟩ := packIndex_one junk cumsum sel hc
  rw [ha, Out.one_andThen, Out.one_andThen, packStore_eq nv a x v start sel hv]

/-- A packing that does not fit stores outside of the destination, for the first pattern a vector
sees. -/
theorem C71_pack_outside (nv : ℕ) (junk : ℕ → ℕ) (cumsum : Option (ℕ → ℕ)) (x v : ℕ → K) (start : ℕ)
    (sel : ℕ → K) (h : IsPattern (asVec n sel)) (hc : Cached n sel cumsum)
    (hfit : nv < start + Range.count (asVec n sel)) (hs : start ≤ nv) :
    none ∈ packToG n nv junk cumsum x v start sel := by
  have h2 := (C63_pack_abort nv junk cumsum x v start sel h hc hfit hs).2
  have hn : n ≠ 0 := by
    rintro rfl
    have : Range.count (asVec 0 sel) = 0 := rfl
    omega
  unfold packToV at h2
  unfold packToG
  rw [if_neg hn] at h2 ⊢
  rw [packIndex_eq]
  obtain ⟨a, ha, hv⟩ := packIndex_one junk cumsum sel hc
  rw [ha, Out.one_andThen] at h2 ⊢
  rwa [packStore_eq nv a x v start sel hv]

/-- **C71, packing, refuted.** The second packing of the same vector, with another pattern, stores the
entries selected by the first pattern. -/
theorem C71_pack_refuted (junk : ℕ → ℕ) :
    ∃ c, packToG 2 1 junk none (fun i => if i = 0 then (7 : ℚ) else 8) (fun _ => 0) 0
          (fun i => if i = 0 then 1 else 0) = .one (putBack ![7] fun _ => 0, c) ∧
      packToG 2 1 junk c (fun i => if i = 0 then (7 : ℚ) else 8) (fun _ => 0) 0
          (fun i => if i = 0 then 0 else 1) = .one (putBack ![7] fun _ => 0, c) ∧
      Range.packTo (![7, 8] : RVec ℚ 2) (![0] : RVec ℚ 1) (0 : ℕ) ![0, 1] = some ![8] := by
  have hp : IsPattern (asVec 2 fun i => if i = 0 then (1 : ℚ) else 0) := by
    intro i
    fin_cases i
    · exact Or.inr rfl
    · exact Or.inl rfl
  have hcnt : 0 + Range.count (asVec 2 fun i => if i = 0 then (1 : ℚ) else 0) ≤ 1 := by
    decide +kernel
  obtain ⟨a, ha, hv⟩ := patternScan_one 2 (fun i => if i = 0 then (1 : ℚ) else 0) junk
  obtain ⟨y, h1, h2⟩ := packStore_one (n := 2) 1 a
    (fun i => if i = 0 then (7 : ℚ) else 8) (fun _ => 0) 0 _ hp hv hcnt
  have hy : y = ![7] := by
    have : Range.packTo (asVec 2 fun i => if i = 0 then (7 : ℚ) else 8) (asVec 1 fun _ => 0)
        ((0 : ℕ) : ℤ) (asVec 2 fun i => if i = 0 then (1 : ℚ) else 0) = some ![7] := by
      decide +kernel
    rw [h1] at this
    exact Option.some.inj this
  subst hy
  rw [← packStore_eq 1 a _ _ 0 _ hv] at h2
  refine ⟨some a, ?_, ?_, by decide +kernel⟩
  · unfold packToG packIndexG
    rw [if_neg (by norm_num), cusum_eq, ha, Out.one_andThen, h2, Out.one_andThen]
  · unfold packToG packIndexG
    rw [if_neg (by norm_num), Out.one_andThen, h2, Out.one_andThen]

/-! ## Indexed addition -/

theorem axpyIdx_eq (ni : ℕ) (a : K) (v y : ℕ → K) (idx : ℕ → ℕ) :
    axpyIdxG n ni a v idx y = axpyIdxV n ni a v idx y := by
  unfold axpyIdxG axpyIdxV
  rw [launch_eq]

/-- **C71, indexed addition (partial).** With an index for every element and no index twice. -/
theorem C71_axpyIdx_partial (a : K) (v y : ℕ → K) (idx : Fin n → Fin n)
    (hinj : Function.Injective idx) :
    axpyIdxG n n a v (fun i => if h : i < n then idx ⟨i, h⟩ else 0) y
      = .one (putBack (PriDec.axpyIdx (asVec n y) a (asVec n v) idx) y) := by
  rw [axpyIdx_eq]
  exact C63_axpyIdx_partial a v y idx hinj

/-- **C71, indexed addition, refuted.** With fewer indexes than elements the kernel reads behind the
end of the index vector; with a repeated index a contribution can be lost. -/
theorem C71_axpyIdx_refuted :
    (∀ (n ni : ℕ) (a : K) (v y : ℕ → K) (idx : ℕ → ℕ), ni < n →
      none ∈ axpyIdxG n ni a v idx y) ∧
    some (fun i => if i = 0 then (20 : ℚ) else 0) ∈
        axpyIdxG 2 2 (1 : ℚ) (fun i => if i = 0 then 10 else 20) (fun _ => 0) (fun _ => 0) ∧
    PriDec.axpyIdx (![0, 0] : RVec ℚ 2) 1 (![10, 20] : RVec ℚ 2) (fun _ => 0) = ![30, 0] := by
  refine ⟨fun n ni a v y idx h => ?_, ?_, C63_axpyIdx_repeated_refuted.2⟩
  · rw [axpyIdx_eq]
    exact C63_axpyIdx_short_refuted ni h a v y idx
  · rw [axpyIdx_eq]
    exact C63_axpyIdx_repeated_refuted.1

/-! ## Vectors of integers -/

theorem C71_linspace (sz : ℕ) (i0 di : ℤ) (x : ℕ → ℤ) :
    linspaceG sz i0 di x = .one fun i => if i < sz then i0 + i * di else x i := by
  rw [linspaceG, launch_eq]
  refine forallR_wr _ (fun i => i) (fun i j _ _ e => e) (fun i hi => ?_) fun l hl => ?_
  · rw [if_pos hi]
  · rw [if_neg fun h => hl l h rfl]

/-- **C71, constant integers, as it is.** An element in the first quarter of the vector becomes four
copies of the low byte of the constant; an element in the last three quarters is not changed. -/
theorem C71_intSetToConstant_exact (sz : ℕ) (c : ℤ) (b : Bytes) (i : ℕ) :
    (4 * i + 4 ≤ sz → word (intSetToConstantG sz c b) i = 16843009 * (c % 256).toNat) ∧
      (sz ≤ 4 * i → word (intSetToConstantG sz c b) i = word b i) := by
  unfold word intSetToConstantG memset
  constructor
  · intro h
    rw [if_pos (by omega), if_pos (by omega), if_pos (by omega), if_pos (by omega)]
    ring
  · intro h
    rw [if_neg (by omega), if_neg (by omega), if_neg (by omega), if_neg (by omega)]

/-- **C71, constant integers, refuted.** For no vector with at least four elements and no constant
other than 0 and -1 between -1 and 255 is the first element the constant afterwards. (`-1` is
4294967295 as an unsigned number.) Setting a vector to zero leaves the second element as it was. -/
theorem C71_intSetToConstant_refuted (sz : ℕ) (b : Bytes) (h : 4 ≤ sz) :
    (∀ c : ℕ, 0 < c → c < 256 → word (intSetToConstantG sz c b) 0 ≠ c) ∧
      (sz = 4 → word (intSetToZeroG sz b) 1 = word b 1) := by
  constructor
  · intro c hc hc'
    rw [((C71_intSetToConstant_exact sz c b 0).1 (by omega))]
    have : ((c : ℤ) % 256).toNat = c := by omega
    rw [this]
    omega
  · intro h4
    exact (C71_intSetToConstant_exact sz 0 b 1).2 (by omega)

/-! ## Cases that meet the hypotheses -/

/-- A pattern with a one and a zero, and a vector that is zero where it is not selected
(`C71_copyFromSel_partial`, `C71_axpySel_partial`, and the operations with a pattern). -/
example : IsPattern (asVec 2 fun i => if i = 0 then (1 : ℚ) else 0) ∧
    ∀ i, i < 2 → (if i = 0 then (1 : ℚ) else 0) = 0 → (if i = 0 then (5 : ℚ) else 0) = 0 := by
  refine ⟨fun i => ?_, fun i _ h => ?_⟩
  · fin_cases i
    · exact Or.inr rfl
    · exact Or.inl rfl
  · by_cases h0 : i = 0 <;> simp_all

/-- A vector that needs more than one block: 1000 elements, 4 blocks, 1024 threads, 24 of them
idle. -/
example : numBlocks 1000 = 4 ∧ 1000 ≤ numBlocks 1000 * blockSize := by decide

/-- Bounds that are not inverted and positive slacks (`C71_project_partial`, `C71_logBarrier_partial`,
`C71_min_partial`). -/
example : (∀ i : ℕ, i < 2 → (0 : ℚ) < 1 + i) ∧ ∀ i : ℕ, i < 2 → (1 : ℚ) + i ≤ 10 := by
  constructor
  · intro i _
    positivity
  · intro i hi
    interval_cases i <;> norm_num

/-- A direction with a nonnegative entry (`C71_fractionToBdry_partial`). -/
example : ∃ i : ℕ, i < 2 ∧ (0 : ℚ) ≤ (if i = 0 then -1 else 2) := ⟨1, by norm_num, by norm_num⟩

/-- Index maps whose images together are all elements (`C71_copyFromTwo`, `C71_copyToTwo`). -/
example : 2 + 1 = 3 ∧ (∀ i, i < 2 → 2 * i < 3) ∧ (∀ i, i < 1 → 2 * i + 1 < 3) ∧
    ∀ i j, i < 2 → j < 1 → 2 * i ≠ 2 * j + 1 := by
  refine ⟨rfl, ?_, ?_, ?_⟩ <;> intros <;> omega

/-- A packing (`C71_pack_partial`). -/
example : IsPattern (asVec 3 fun i => if i = 1 then (0 : ℚ) else 1) ∧
    1 + Range.count (asVec 3 fun i => if i = 1 then (0 : ℚ) else 1) ≤ 4 ∧
    Cached 3 (fun i => if i = 1 then (0 : ℚ) else 1) none := by
  refine ⟨fun i => ?_, by decide +kernel, fun _ h => by cases h⟩
  fin_cases i
  · exact Or.inr rfl
  · exact Or.inl rfl
  · exact Or.inr rfl

end Hiop.Gpu
