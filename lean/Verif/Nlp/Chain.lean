import Verif.Nlp.Remover
import Verif.Nlp.Scaling
import Mathlib.Analysis.Calculus.FDeriv.Pi
import Mathlib.Analysis.Calculus.FDeriv.Mul
import Mathlib.Analysis.Calculus.FDeriv.Comp

/-!
# The chain of NLP transformations and the evaluation of the user's functions through it (C15)

`r` and `s` are the numbers of equality and inequality constraints.
-/

set_option linter.unusedSectionVars false

namespace Hiop.Nlp

open Hiop.Vec Hiop.Loop

/-! ## Model -/

/-- One element of the list of transformations, hiopNlpTransforms.hpp:80-553. `n` is `n_pre()`
and the second index is `n_post()`. -/
inductive Trans (K : Type) (r s : ℕ) : ℕ → ℕ → Type
  /-- `hiopFixedVarsRemover`, hiopNlpTransforms.hpp:150-316 -/
  | remover {n : ℕ} (R : Remover K n) : Trans K r s n (n - R.nFixed)
  /-- `hiopFixedVarsRelaxer`, hiopNlpTransforms.hpp:318-343: only the bounds are changed -/
  | fixedRelaxer (n : ℕ) : Trans K r s n n
  /-- `hiopBoundsRelaxer`, hiopNlpTransforms.hpp:506-552: only the bounds are changed -/
  | boundsRelaxer (n : ℕ) : Trans K r s n n
  /-- `hiopNLPObjGradScaling`, hiopNlpTransforms.hpp:351-504 -/
  | scaling (n : ℕ) (so : K) (sc : RVec K r) (sd : RVec K s) : Trans K r s n n

/-- The list `list_trans_` of `hiopNlpTransformations`, hiopNlpTransforms.hpp:555-794. The sizes
of neighbours agree by construction (`finalizeInitialization` and `apply_scaling` build it
from the front). -/
inductive Chain (K : Type) (r s : ℕ) : ℕ → ℕ → Type
  | nil (n : ℕ) : Chain K r s n n
  | cons {n m k : ℕ} (t : Trans K r s n m) (rest : Chain K r s m k) : Chain K r s n k

section
variable {K : Type} [Field K] [LinearOrder K] [IsStrictOrderedRing K] {r s : ℕ}

/-- `append` (push_back), hiopNlpTransforms.hpp:573. -/
def Chain.append : {n m k : ℕ} → Chain K r s n m → Trans K r s m k → Chain K r s n k
  | _, _, _, .nil _, t => .cons t (.nil _)
  | _, _, _, .cons t' rest, t => .cons t' (rest.append t)

/-- `apply_inv_to_x` of one transformation with `new_x = true`, hiopNlpTransforms.hpp:94 and
175-181. `mem` is the (arbitrary) content of the buffers before the call. The caching with
`new_x = false` is the subject of `C14_history`. -/
def Trans.invX (mem : ∀ n, RVec K n) : {n m : ℕ} → Trans K r s n m → RVec K m → Option (RVec K n)
  | _, _, .remover R, x => R.invX (mem _) x true
  | _, _, .fixedRelaxer _, x => some x
  | _, _, .boundsRelaxer _, x => some x
  | _, _, .scaling _ _ _ _, x => some x

/-- `hiopNlpTransformations::apply_inv_to_x`, hiopNlpTransforms.hpp:641-648 (reverse order). -/
def Chain.invX (mem : ∀ n, RVec K n) : {n m : ℕ} → Chain K r s n m → RVec K m → Option (RVec K n)
  | _, _, .nil _, x => some x
  | _, _, .cons t rest, x => (rest.invX mem x).bind fun y => t.invX mem y

/-- `apply_to_obj`, hiopNlpTransforms.hpp:104 and 389. -/
def Trans.toObj : {n m : ℕ} → Trans K r s n m → K → K
  | _, _, .remover _, f => f
  | _, _, .fixedRelaxer _, f => f
  | _, _, .boundsRelaxer _, f => f
  | _, _, .scaling _ so _ _, f => so * f

/-- `hiopNlpTransformations::apply_to_obj`, hiopNlpTransforms.hpp:672-679 (list order). -/
def Chain.toObj : {n m : ℕ} → Chain K r s n m → K → K
  | _, _, .nil _, f => f
  | _, _, .cons t rest, f => rest.toObj (t.toObj f)

/-- `apply_to_grad_obj`, hiopNlpTransforms.hpp:107, 208-211 and 399-403. -/
def Trans.toGrad (mem : ∀ n, RVec K n) : {n m : ℕ} → Trans K r s n m → RVec K n → Option (RVec K m)
  | _, _, .remover R, g => R.toVec g (mem _)
  | _, _, .fixedRelaxer _, g => some g
  | _, _, .boundsRelaxer _, g => some g
  | _, _, .scaling _ so _ _, g => some (scale g so)

/-- `hiopNlpTransformations::apply_to_grad_obj`, hiopNlpTransforms.hpp:690-697. -/
def Chain.toGrad (mem : ∀ n, RVec K n) : {n m : ℕ} → Chain K r s n m → RVec K n → Option (RVec K m)
  | _, _, .nil _, g => some g
  | _, _, .cons t rest, g => (t.toGrad mem g).bind fun h => rest.toGrad mem h

/-- `apply_to_cons_eq`, hiopNlpTransforms.hpp:110 and 414-419. -/
def Trans.toEq : {n m : ℕ} → Trans K r s n m → RVec K r → RVec K r
  | _, _, .remover _, c => c
  | _, _, .fixedRelaxer _, c => c
  | _, _, .boundsRelaxer _, c => c
  | _, _, .scaling _ _ sc _, c => componentMult c sc

/-- `hiopNlpTransformations::apply_to_cons_eq`, hiopNlpTransforms.hpp:708-715. -/
def Chain.toEq : {n m : ℕ} → Chain K r s n m → RVec K r → RVec K r
  | _, _, .nil _, c => c
  | _, _, .cons t rest, c => rest.toEq (t.toEq c)

/-- `apply_to_cons_ineq`, hiopNlpTransforms.hpp:112 and 430-435. -/
def Trans.toIneq : {n m : ℕ} → Trans K r s n m → RVec K s → RVec K s
  | _, _, .remover _, c => c
  | _, _, .fixedRelaxer _, c => c
  | _, _, .boundsRelaxer _, c => c
  | _, _, .scaling _ _ _ sd, c => componentMult c sd

/-- `hiopNlpTransformations::apply_to_cons_ineq`, hiopNlpTransforms.hpp:726-733. -/
def Chain.toIneq : {n m : ℕ} → Chain K r s n m → RVec K s → RVec K s
  | _, _, .nil _, c => c
  | _, _, .cons t rest, c => rest.toIneq (t.toIneq c)

/-- A dense matrix as the row-major array behind it. -/
def flat {n : ℕ} (J : Fin r → RVec K n) : ℕ → K := fun a =>
  if h : a / n < r ∧ a % n < n then J ⟨a / n, h.1⟩ ⟨a % n, h.2⟩ else 0

/-- `apply_to_jacob_eq`, hiopNlpTransforms.hpp:121, 226-234 and 462-467; `mem` is the content of
the target before the call. -/
def Trans.toJacEq (mem : ℕ → K) : {n m : ℕ} → Trans K r s n m → (Fin r → RVec K n) → (Fin r → RVec K m)
  | n, _, .remover R, J => fun i j => R.invMatrix r (flat J) mem (i.val * (n - R.nFixed) + j.val)
  | _, _, .fixedRelaxer _, J => J
  | _, _, .boundsRelaxer _, J => J
  | _, _, .scaling _ _ sc _, J => scaleRow J sc false

/-- `hiopNlpTransformations::apply_to_jacob_eq`, hiopNlpTransforms.hpp:762-769. -/
def Chain.toJacEq (mem : ℕ → K) : {n m : ℕ} → Chain K r s n m → (Fin r → RVec K n) → (Fin r → RVec K m)
  | _, _, .nil _, J => J
  | _, _, .cons t rest, J => rest.toJacEq mem (t.toJacEq mem J)

/-- `apply_to_jacob_ineq`, hiopNlpTransforms.hpp:124, 247-255 and 478-483. -/
def Trans.toJacIneq (mem : ℕ → K) : {n m : ℕ} → Trans K r s n m → (Fin s → RVec K n) → (Fin s → RVec K m)
  | n, _, .remover R, J => fun i j => R.invMatrix s (flat J) mem (i.val * (n - R.nFixed) + j.val)
  | _, _, .fixedRelaxer _, J => J
  | _, _, .boundsRelaxer _, J => J
  | _, _, .scaling _ _ _ sd, J => scaleRow J sd false

/-- `hiopNlpTransformations::apply_to_jacob_ineq`, hiopNlpTransforms.hpp:780-787. -/
def Chain.toJacIneq (mem : ℕ → K) : {n m : ℕ} → Chain K r s n m → (Fin s → RVec K n) → (Fin s → RVec K m)
  | _, _, .nil _, J => J
  | _, _, .cons t rest, J => rest.toJacIneq mem (t.toJacIneq mem J)

/-- `hiopNlpFormulation::eval_f`, hiopNlpFormulation.cpp:743-753; `user` is the user's function
with its success flag. -/
def Chain.evalF {n m : ℕ} (C : Chain K r s n m) (mem : ∀ n, RVec K n) (user : RVec K n → Bool × K)
    (x : RVec K m) : Option (Bool × K) :=
  (C.invX mem x).map fun xx => ((user xx).1, C.toObj (user xx).2)

/-- `hiopNlpFormulation::eval_grad_f`, hiopNlpFormulation.cpp:755-773. The vector handed to the
user (`apply_inv_to_grad_obj`) is overwritten by the user. -/
def Chain.evalGrad {n m : ℕ} (C : Chain K r s n m) (mem : ∀ n, RVec K n) (user : RVec K n → Bool × RVec K n)
    (x : RVec K m) : Option (Bool × RVec K m) :=
  (C.invX mem x).bind fun xx => (C.toGrad mem (user xx).2).map fun g => ((user xx).1, g)

/-- `hiopNlpFormulation::eval_c`, hiopNlpFormulation.cpp:882-902. -/
def Chain.evalC {n m : ℕ} (C : Chain K r s n m) (mem : ∀ n, RVec K n) (user : RVec K n → Bool × RVec K r)
    (x : RVec K m) : Option (Bool × RVec K r) :=
  (C.invX mem x).map fun xx => ((user xx).1, C.toEq (user xx).2)

/-- `hiopNlpFormulation::eval_d`, hiopNlpFormulation.cpp:903-923. -/
def Chain.evalD {n m : ℕ} (C : Chain K r s n m) (mem : ∀ n, RVec K n) (user : RVec K n → Bool × RVec K s)
    (x : RVec K m) : Option (Bool × RVec K s) :=
  (C.invX mem x).map fun xx => ((user xx).1, C.toIneq (user xx).2)

/-- `hiopNlpDenseConstraints::eval_Jac_c`, hiopNlpFormulation.cpp:1546-1581. -/
def Chain.evalJacC {n m : ℕ} (C : Chain K r s n m) (mem : ∀ n, RVec K n) (memJ : ℕ → K)
    (user : RVec K n → Bool × (Fin r → RVec K n)) (x : RVec K m) :
    Option (Bool × (Fin r → RVec K m)) :=
  (C.invX mem x).map fun xx => ((user xx).1, C.toJacEq memJ (user xx).2)

/-- `hiopNlpDenseConstraints::eval_Jac_d`, hiopNlpFormulation.cpp:1584-1618. -/
def Chain.evalJacD {n m : ℕ} (C : Chain K r s n m) (mem : ∀ n, RVec K n) (memJ : ℕ → K)
    (user : RVec K n → Bool × (Fin s → RVec K n)) (x : RVec K m) :
    Option (Bool × (Fin s → RVec K m)) :=
  (C.invX mem x).map fun xx => ((user xx).1, C.toJacIneq memJ (user xx).2)

/-- The transformation was set up as in `finalizeInitialization`: a remover comes from a
successful `setupDecisionVectorPart`. -/
def Trans.Valid : {n m : ℕ} → Trans K r s n m → Prop
  | _, _, .remover R => ∃ tol xl xu nFixed, mkRemover tol xl xu nFixed = some R
  | _, _, _ => True

/-- Every element is set up. -/
def Chain.Valid : {n m : ℕ} → Chain K r s n m → Prop
  | _, _, .nil _ => True
  | _, _, .cons t rest => t.Valid ∧ rest.Valid

end

/-! ## Specification vocabulary -/

/-- `g` is the gradient of `F` at `x`. -/
def HasGrad {n : ℕ} (F : RVec ℝ n → ℝ) (g : RVec ℝ n) (x : RVec ℝ n) : Prop :=
  HasFDerivAt F (∑ j, g j • (ContinuousLinearMap.proj (R := ℝ) (φ := fun _ : Fin n => ℝ) j)) x

/-! ## Proofs -/

variable {n m k r s : ℕ}

theorem hasGrad_comp {F : RVec ℝ n → ℝ} {g : RVec ℝ n} {E : RVec ℝ m → RVec ℝ n}
    {E' : RVec ℝ m →L[ℝ] RVec ℝ n} {x : RVec ℝ m} {h : RVec ℝ m}
    (hF : HasGrad F g (E x)) (hE : HasFDerivAt E E' x)
    (hg : ∀ v, ∑ i, g i * E' v i = ∑ j, h j * v j) : HasGrad (fun x => F (E x)) h x := by
  unfold HasGrad at *
  have := hF.comp x hE
  refine HasFDerivAt.congr_fderiv this ?_
  ext v
  simpa using hg v

theorem hasGrad_smul {F : RVec ℝ n → ℝ} {g x : RVec ℝ n} (c : ℝ) (hF : HasGrad F g x) :
    HasGrad (fun x => c * F x) (fun i => c * g i) x := by
  unfold HasGrad at *
  refine (hF.const_mul c).congr_fderiv ?_
  ext v
  simp [Finset.mul_sum, mul_assoc]

/-- The linear part of the expansion. -/
noncomputable def expandLin (p : Fin n → Prop) [DecidablePred p] (w : ℕ)
    (hw : ∀ i, p i → countBelow p i < w) : RVec ℝ w →L[ℝ] RVec ℝ n :=
  ContinuousLinearMap.pi fun i =>
    if h : p i then ContinuousLinearMap.proj (⟨countBelow p i, hw i h⟩ : Fin w) else 0

theorem expandLin_apply (p : Fin n → Prop) [DecidablePred p] (w : ℕ)
    (hw : ∀ i, p i → countBelow p i < w) (v : RVec ℝ w) (i : Fin n) :
    expandLin p w hw v i = if h : p i then v ⟨countBelow p i, hw i h⟩ else 0 := by
  unfold expandLin
  simp only [ContinuousLinearMap.coe_pi']
  split_ifs <;> rfl

theorem sum_free (p : Fin n → Prop) [DecidablePred p] (w : ℕ) (hr : w = countBelow p n)
    (hw : ∀ i, p i → countBelow p i < w) (g : RVec ℝ n) (h v : RVec ℝ w)
    (hh : ∀ i (hi : p i), h ⟨countBelow p i, hw i hi⟩ = g i) :
    ∑ i, g i * expandLin p w hw v i = ∑ j, h j * v j := by
  have e1 : ∑ j, h j * v j = (List.ofFn fun j => h j * v j).sum := (List.sum_ofFn).symm
  have e2 := ofFn_eq_free p hr (fun j => h j * v j) (fun i => g i * expandLin p w hw v i)
    (by
      intro i hi hb
      rw [expandLin_apply, dif_pos hi, ← hh i hi])
  rw [e1, e2]
  have e3 : ∀ (F : Fin n → ℝ), (∀ i, ¬ p i → F i = 0) →
      ((List.finRange n).map F).sum =
        (((List.finRange n).filter fun i => decide (p i)).map F).sum := by
    intro F hF
    induction (List.finRange n) with
    | nil => rfl
    | cons a l ih =>
      by_cases ha : p a
      · simp [ha, ih]
      · simp [ha, ih, hF a ha]
  rw [← e3]
  · rw [← List.ofFn_eq_map, List.sum_ofFn]
  · intro i hi; rw [expandLin_apply, dif_neg hi, mul_zero]

/-- What one transformation does to points and derivatives. -/
theorem trans_spec (t : Trans ℝ r s n m) (ht : t.Valid) :
    ∃ E : RVec ℝ m → RVec ℝ n, (∀ mem x, t.invX mem x = some (E x)) ∧
      (∀ g, ∃ h, (∀ mem, t.toGrad mem g = some h) ∧
        ∀ f x, HasGrad f g (E x) → HasGrad (fun x => t.toObj (f (E x))) h x) ∧
      (∀ J mem, ∀ (c : RVec ℝ n → RVec ℝ r) x, (∀ i, HasGrad (fun y => c y i) (J i) (E x)) →
        ∀ i, HasGrad (fun x => t.toEq (c (E x)) i) (t.toJacEq mem J i) x) ∧
      (∀ J mem, ∀ (c : RVec ℝ n → RVec ℝ s) x, (∀ i, HasGrad (fun y => c y i) (J i) (E x)) →
        ∀ i, HasGrad (fun x => t.toIneq (c (E x)) i) (t.toJacIneq mem J i) x) := by
  cases t with
  | fixedRelaxer =>
    exact ⟨id, fun _ _ => rfl, fun g => ⟨g, fun _ => rfl, fun f x h => h⟩,
      fun J mem c x h => h, fun J mem c x h => h⟩
  | boundsRelaxer =>
    exact ⟨id, fun _ _ => rfl, fun g => ⟨g, fun _ => rfl, fun f x h => h⟩,
      fun J mem c x h => h, fun J mem c x h => h⟩
  | scaling so sc sd =>
    refine ⟨id, fun _ _ => rfl, fun g => ⟨scale g so, fun _ => rfl, ?_⟩, ?_, ?_⟩
    · intro f x h
      rw [scale_apply]
      exact hasGrad_smul so h
    · intro J mem c x h i
      have := hasGrad_smul (sc i) (h i)
      simp only [Trans.toEq, Trans.toJacEq, componentMult, id]
      simp only [mul_comm _ (sc i)]
      exact this
    · intro J mem c x h i
      have := hasGrad_smul (sd i) (h i)
      simp only [Trans.toIneq, Trans.toJacIneq, componentMult, id]
      simp only [mul_comm _ (sd i)]
      exact this
  | remover R =>
    obtain ⟨tol, xl, xu, nFixed, h⟩ := ht
    obtain ⟨-, -, -, hr⟩ := mkRemover_spec h
    set p : Fin n → Prop := fun j => ¬ Close tol xl xu j with hp
    have hw : ∀ i, p i → countBelow p i < n - R.nFixed := by
      intro i hi; rw [hr]; exact countBelow_lt p hi i.isLt
    set E : RVec ℝ (n - R.nFixed) → RVec ℝ n := fun x i =>
      if hi : p i then x ⟨countBelow p i, hw i hi⟩ else xl i with hE
    have hEd : ∀ x, HasFDerivAt E (expandLin p _ hw) x := by
      intro x
      rw [hasFDerivAt_pi']
      intro i
      by_cases hi : p i
      · have e : (fun x => E x i) = fun x : RVec ℝ (n - R.nFixed) => x ⟨countBelow p i, hw i hi⟩ := by
          funext y; simp only [hE]; rw [dif_pos hi]
        have e' : (ContinuousLinearMap.proj i).comp (expandLin p _ hw) =
            (ContinuousLinearMap.proj (⟨countBelow p i, hw i hi⟩ : Fin (n - R.nFixed)) :
              RVec ℝ (n - R.nFixed) →L[ℝ] ℝ) := by
          refine ContinuousLinearMap.ext fun v => ?_
          change expandLin p _ hw v i = v _
          rw [expandLin_apply, dif_pos hi]
        rw [e, e']
        exact (ContinuousLinearMap.proj (⟨countBelow p i, hw i hi⟩ : Fin (n - R.nFixed)) :
              RVec ℝ (n - R.nFixed) →L[ℝ] ℝ).hasFDerivAt
      · have e : (fun x => E x i) = fun _ : RVec ℝ (n - R.nFixed) => xl i := by
          funext y; simp only [hE]; rw [dif_neg hi]
        have e' : (ContinuousLinearMap.proj i).comp (expandLin p _ hw) =
            (0 : RVec ℝ (n - R.nFixed) →L[ℝ] ℝ) := by
          refine ContinuousLinearMap.ext fun v => ?_
          change expandLin p _ hw v i = 0
          rw [expandLin_apply, dif_neg hi]
        rw [e, e']
        exact hasFDerivAt_const _ _
    have hJ : ∀ (q : ℕ) (J : Fin q → RVec ℝ n) (mem : ℕ → ℝ) (i : Fin q) (j : Fin n) (hj : p j),
        R.invMatrix q (flat J) mem (i.val * (n - R.nFixed) + countBelow p j) = J i j := by
      intro q J mem i j hj
      have h1 := (C14_jacobian_columns h q (flat J) mem).1 i i.isLt
      have h2 := ofFn_eq_free p hr
        (fun c : Fin (n - R.nFixed) => if hc : ∃ j', p j' ∧ countBelow p j' = c.val then
          J i hc.choose else 0) (J i) (by
          intro i' hi' hb
          have hex : ∃ j', p j' ∧ countBelow p j' = countBelow p i' := ⟨i', hi', rfl⟩
          simp only
          rw [dif_pos hex]
          rw [countBelow_inj p hex.choose_spec.1 hi' hex.choose_spec.2])
      have h3 : (freeIdx tol xl xu).map (fun j => flat J (i.val * n + j.val)) =
          ((List.finRange n).filter fun i => decide (p i)).map (J i) := by
        have : freeIdx tol xl xu = (List.finRange n).filter fun i => decide (p i) := rfl
        rw [this]
        apply List.map_congr_left
        intro j' _
        have hn : 0 < n := j'.pos
        have e1 : (i.val * n + j'.val) / n = i.val := by
          rw [Nat.add_comm, Nat.add_mul_div_right _ _ hn, Nat.div_eq_of_lt j'.isLt, Nat.zero_add]
        have e2 : (i.val * n + j'.val) % n = j'.val := by
          rw [Nat.add_comm, Nat.add_mul_mod_self_right, Nat.mod_eq_of_lt j'.isLt]
        unfold flat
        rw [dif_pos ⟨by rw [e1]; exact i.isLt, by rw [e2]; exact j'.isLt⟩]
        congr 1
        · congr 1
        · exact Fin.ext e2
      rw [h3, ← h2] at h1
      have h4 := congrFun (List.ofFn_injective h1) ⟨countBelow p j, hw j hj⟩
      simp only at h4
      have hex : ∃ j', p j' ∧ countBelow p j' = countBelow p j := ⟨j, hj, rfl⟩
      rw [h4, dif_pos hex, countBelow_inj p hex.choose_spec.1 hj hex.choose_spec.2]
    refine ⟨E, ?_, ?_, ?_, ?_⟩
    · intro mem x
      obtain ⟨fs, h1, h2, h3⟩ := invVec_pointwise h x (mem n)
      change R.invVec x (mem n) = _
      rw [h1]
      congr 1
      funext i
      simp only [hE]
      split_ifs with hi
      · exact (h3 i hi (hw i hi)).symm
      · exact h2 i (not_not.mp hi)
    · intro g
      obtain ⟨h0, h1, h2⟩ := toVec_pointwise h g (fun _ => 0)
      refine ⟨h0, ?_, ?_⟩
      · intro mem
        obtain ⟨h0', h1', h2'⟩ := toVec_pointwise h g (mem _)
        change R.toVec g (mem _) = _
        rw [h1']
        congr 1
        apply List.ofFn_injective
        rw [ofFn_eq_free p hr h0' g h2', ofFn_eq_free p hr h0 g h2]
      · intro f x hf
        exact hasGrad_comp hf (hEd x) fun v => sum_free p _ hr hw g h0 v fun i hi => h2 i hi (hw i hi)
    · intro J mem c x hc i
      exact hasGrad_comp (hc i) (hEd x) fun v =>
        sum_free p _ hr hw (J i) _ v fun j hj => hJ r J mem i j hj
    · intro J mem c x hc i
      exact hasGrad_comp (hc i) (hEd x) fun v =>
        sum_free p _ hr hw (J i) _ v fun j hj => hJ s J mem i j hj

theorem chain_spec (C : Chain ℝ r s n m) (hC : C.Valid) :
    ∃ E : RVec ℝ m → RVec ℝ n, (∀ mem x, C.invX mem x = some (E x)) ∧
      (∀ g, ∃ h, (∀ mem, C.toGrad mem g = some h) ∧
        ∀ f x, HasGrad f g (E x) → HasGrad (fun x => C.toObj (f (E x))) h x) ∧
      (∀ J mem, ∀ (c : RVec ℝ n → RVec ℝ r) x, (∀ i, HasGrad (fun y => c y i) (J i) (E x)) →
        ∀ i, HasGrad (fun x => C.toEq (c (E x)) i) (C.toJacEq mem J i) x) ∧
      (∀ J mem, ∀ (c : RVec ℝ n → RVec ℝ s) x, (∀ i, HasGrad (fun y => c y i) (J i) (E x)) →
        ∀ i, HasGrad (fun x => C.toIneq (c (E x)) i) (C.toJacIneq mem J i) x) := by
  induction C with
  | nil =>
    exact ⟨id, fun _ _ => rfl, fun g => ⟨g, fun _ => rfl, fun f x h => h⟩,
      fun J mem c x h => h, fun J mem c x h => h⟩
  | cons t rest ih =>
    obtain ⟨ht, hrest⟩ := hC
    obtain ⟨E1, a1, b1, c1, d1⟩ := trans_spec t ht
    obtain ⟨E2, a2, b2, c2, d2⟩ := ih hrest
    refine ⟨fun x => E1 (E2 x), ?_, ?_, ?_, ?_⟩
    · intro mem x
      simp only [Chain.invX, a2, Option.bind_some, a1]
    · intro g
      obtain ⟨h1, p1, q1⟩ := b1 g
      obtain ⟨h2, p2, q2⟩ := b2 h1
      refine ⟨h2, ?_, ?_⟩
      · intro mem
        simp only [Chain.toGrad, p1, Option.bind_some, p2]
      · intro f x hf
        exact q2 _ x (q1 f (E2 x) hf)
    · intro J mem c x hc
      exact c2 _ mem (fun y => t.toEq (c (E1 y))) x (c1 J mem c (E2 x) hc)
    · intro J mem c x hc
      exact d2 _ mem (fun y => t.toIneq (c (E1 y))) x (d1 J mem c (E2 x) hc)

/-- **C15 (derivatives).** For every chain of transformations, of any length and composition, and
whatever the buffers contain: if the user's gradient and Jacobians are the derivatives of the
user's functions, then the solver receives values, and the gradient and Jacobians it receives are
the derivatives, with respect to the solver's variables, of the objective and constraint values it
receives. -/
theorem C15_derivatives_consistent (C : Chain ℝ r s n m) (hC : C.Valid)
    (f : RVec ℝ n → ℝ) (g : RVec ℝ n → RVec ℝ n) (hf : ∀ y, HasGrad f (g y) y)
    (c : RVec ℝ n → RVec ℝ r) (Jc : RVec ℝ n → Fin r → RVec ℝ n)
    (hc : ∀ y i, HasGrad (fun y => c y i) (Jc y i) y)
    (d : RVec ℝ n → RVec ℝ s) (Jd : RVec ℝ n → Fin s → RVec ℝ n)
    (hd : ∀ y i, HasGrad (fun y => d y i) (Jd y i) y)
    (mem : ∀ n, RVec ℝ n) (memJ : ℕ → ℝ) :
    ∃ (F : RVec ℝ m → ℝ) (G : RVec ℝ m → RVec ℝ m) (Cc : RVec ℝ m → RVec ℝ r)
      (Dd : RVec ℝ m → RVec ℝ s) (JC : RVec ℝ m → Fin r → RVec ℝ m)
      (JD : RVec ℝ m → Fin s → RVec ℝ m),
      (∀ x, C.evalF mem (fun y => (true, f y)) x = some (true, F x)) ∧
      (∀ x, C.evalGrad mem (fun y => (true, g y)) x = some (true, G x)) ∧
      (∀ x, C.evalC mem (fun y => (true, c y)) x = some (true, Cc x)) ∧
      (∀ x, C.evalD mem (fun y => (true, d y)) x = some (true, Dd x)) ∧
      (∀ x, C.evalJacC mem memJ (fun y => (true, Jc y)) x = some (true, JC x)) ∧
      (∀ x, C.evalJacD mem memJ (fun y => (true, Jd y)) x = some (true, JD x)) ∧
      (∀ x, HasGrad F (G x) x) ∧ (∀ x i, HasGrad (fun x => Cc x i) (JC x i) x) ∧
      (∀ x i, HasGrad (fun x => Dd x i) (JD x i) x) := by
  obtain ⟨E, a, b, c', d'⟩ := chain_spec C hC
  refine ⟨fun x => C.toObj (f (E x)), fun x => (b (g (E x))).choose, fun x => C.toEq (c (E x)),
    fun x => C.toIneq (d (E x)), fun x => C.toJacEq memJ (Jc (E x)),
    fun x => C.toJacIneq memJ (Jd (E x)), ?_, ?_, ?_, ?_, ?_, ?_, ?_, ?_, ?_⟩
  · intro x; simp [Chain.evalF, a]
  · intro x
    have := (b (g (E x))).choose_spec.1 mem
    simp [Chain.evalGrad, a, this]
  · intro x; simp [Chain.evalC, a]
  · intro x; simp [Chain.evalD, a]
  · intro x; simp [Chain.evalJacC, a]
  · intro x; simp [Chain.evalJacD, a]
  · intro x; exact (b (g (E x))).choose_spec.2 f x (hf (E x))
  · intro x i; exact c' _ memJ c x (hc (E x)) i
  · intro x i; exact d' _ memJ d x (hd (E x)) i


/-! ## The chains that occur -/

section
variable {K : Type} [Field K] [LinearOrder K] [IsStrictOrderedRing K] {r s : ℕ}

/-- Value of the option `fixed_var`. -/
inductive FixedVarOpt
  | remove | relax | none

/-- The chain built by `finalizeInitialization`, hiopNlpFormulation.cpp:258-405. `nFixed` is the
count of `process_bounds`; `none` is a failed assertion or `exit(EXIT_FAILURE)` on line 362. -/
def buildChain (r s : ℕ) (fv : FixedVarOpt) (perturb tol : K) (xl xu : RVec K n) (nFixed : ℕ) :
    Option (Σ m, Chain K r s n m) :=
  let stage1 : Option (Σ m, Chain K r s n m) :=
    if nFixed > 0 then
      match fv with
      | .remove => (mkRemover tol xl xu nFixed).map fun R => ⟨_, .cons (.remover R) (.nil _)⟩
      | .relax => if perturb = 0 then some ⟨_, .cons (.fixedRelaxer n) (.nil n)⟩
                  else some ⟨n, .nil n⟩
      | .none => if perturb = 0 then Option.none else some ⟨n, .nil n⟩
    else some ⟨n, .nil n⟩
  stage1.map fun C => if perturb > 0 then ⟨C.1, C.2.append (.boundsRelaxer C.1)⟩ else C

/-- The scalings appended by the successive calls of `run` on the same problem
(`apply_scaling`, hiopNlpFormulation.cpp:671-714; `finalizeInitialization` keeps the chain when no
option has changed, hiopNlpFormulation.cpp:186-200). Each is a triple of factors. -/
def addScalings {m : ℕ} (C : Chain K r s n m) :
    List (K × RVec K r × RVec K s) → Chain K r s n m
  | [] => C
  | q :: qs => addScalings (C.append (.scaling m q.1 q.2.1 q.2.2)) qs

/-- `apply_to_x(x_in, x_out)` of one transformation, hiopNlpTransforms.hpp:97-101, 192-199, 381 and
528-530; the same arrays are passed to every element of the list. `aliased` says that both
arguments are the same memory. -/
def Trans.toX2 {N M : ℕ} (aliased : Bool) (xin : RVec K N) (xout : RVec K M) :
    {n m : ℕ} → Trans K r s n m → Option (RVec K M)
  | n, _, .remover R =>
    if h : N = n ∧ M = n - R.nFixed then
      (R.toVec (fun i => xin (i.cast h.1.symm)) (fun i => xout (i.cast h.2.symm))).map
        fun y i => y (i.cast h.2)
    else none
  | _, _, .fixedRelaxer _ => if aliased then some xout else none
  | _, _, .boundsRelaxer _ => some xout
  | _, _, .scaling _ _ _ _ => some xout

/-- `hiopNlpTransformations::apply_to_x`, hiopNlpTransforms.hpp:656-661. -/
def Chain.toX2 {N M : ℕ} (aliased : Bool) (xin : RVec K N) :
    {n m : ℕ} → Chain K r s n m → RVec K M → Option (RVec K M)
  | _, _, .nil _, xout => some xout
  | _, _, .cons t rest, xout => (t.toX2 aliased xin xout).bind fun y => rest.toX2 aliased xin y

/-- Whether the full-space vector given to the user is a different array from the solver's:
exactly when the chain has a remover (only its `apply_inv_to_x` returns another vector). -/
def Chain.hasRemover : {n m : ℕ} → Chain K r s n m → Bool
  | _, _, .nil _ => false
  | _, _, .cons (.remover _) _ => true
  | _, _, .cons _ rest => rest.hasRemover

/-- The point part of `get_starting_point`, hiopNlpFormulation.cpp:775-825: the user writes `u`
into the expanded vector, which is then transferred to the solver's vector `x0`. Without a
remover both are the same array. -/
def Chain.startX {m : ℕ} (C : Chain K r s n m) (x0 : RVec K m) (u : RVec K n) :
    Option (RVec K m) :=
  if C.hasRemover then C.toX2 false u x0
  else if h : m = n then C.toX2 true u (fun i => u (i.cast h)) else none

theorem toX2_append {N M m k : ℕ} (al : Bool) (xin : RVec K N) (C : Chain K r s n m)
    (t : Trans K r s m k) (xout : RVec K M) :
    (C.append t).toX2 al xin xout =
      (C.toX2 al xin xout).bind fun y => t.toX2 al xin y := by
  induction C generalizing xout with
  | nil => simp [Chain.append, Chain.toX2]
  | cons t' rest ih =>
    simp only [Chain.append, Chain.toX2, ih, Option.bind_assoc]

theorem invX_append {m k : ℕ} (mem : ∀ n, RVec K n) (C : Chain K r s n m) (t : Trans K r s m k)
    (x : RVec K k) :
    (C.append t).invX mem x = (t.invX mem x).bind fun y => C.invX mem y := by
  induction C with
  | nil => simp [Chain.append, Chain.invX]
  | cons t' rest ih => simp only [Chain.append, Chain.invX, ih, Option.bind_assoc]

theorem toObj_append {m k : ℕ} (C : Chain K r s n m) (t : Trans K r s m k) (f : K) :
    (C.append t).toObj f = t.toObj (C.toObj f) := by
  induction C generalizing f with
  | nil => rfl
  | cons t' rest ih => simp only [Chain.append, Chain.toObj, ih]

theorem toEq_append {m k : ℕ} (C : Chain K r s n m) (t : Trans K r s m k) (c : RVec K r) :
    (C.append t).toEq c = t.toEq (C.toEq c) := by
  induction C generalizing c with
  | nil => rfl
  | cons t' rest ih => simp only [Chain.append, Chain.toEq, ih]

theorem toIneq_append {m k : ℕ} (C : Chain K r s n m) (t : Trans K r s m k) (c : RVec K s) :
    (C.append t).toIneq c = t.toIneq (C.toIneq c) := by
  induction C generalizing c with
  | nil => rfl
  | cons t' rest ih => simp only [Chain.append, Chain.toIneq, ih]

theorem hasRemover_append_scaling {m : ℕ} (C : Chain K r s n m) (so : K) (sc : RVec K r)
    (sd : RVec K s) : (C.append (.scaling m so sc sd)).hasRemover = C.hasRemover := by
  induction C with
  | nil => rfl
  | cons t' rest ih =>
    cases t' with
    | remover R => rfl
    | _ => simpa [Chain.append, Chain.hasRemover] using ih

theorem valid_append {m k : ℕ} (C : Chain K r s n m) (t : Trans K r s m k) :
    (C.append t).Valid ↔ C.Valid ∧ t.Valid := by
  induction C with
  | nil => simp [Chain.append, Chain.Valid]
  | cons t' rest ih => simp only [Chain.append, Chain.Valid, ih, and_assoc]

theorem addScalings_valid {m : ℕ} (C : Chain K r s n m) (qs : List (K × RVec K r × RVec K s))
    (hC : C.Valid) : (addScalings C qs).Valid := by
  induction qs generalizing C with
  | nil => exact hC
  | cons q qs ih => exact ih _ ((valid_append _ _).mpr ⟨hC, trivial⟩)

theorem addScalings_spec {m : ℕ} (C : Chain K r s n m) (qs : List (K × RVec K r × RVec K s)) :
    (∀ mem x, (addScalings C qs).invX mem x = C.invX mem x) ∧
    (∀ x0 u, (addScalings C qs).startX x0 u = C.startX x0 u) ∧
    (∀ f, (addScalings C qs).toObj f = (qs.map fun q => q.1).prod * C.toObj f) ∧
    (∀ c i, (addScalings C qs).toEq c i = (qs.map fun q => q.2.1 i).prod * C.toEq c i) ∧
    (∀ c i, (addScalings C qs).toIneq c i = (qs.map fun q => q.2.2 i).prod * C.toIneq c i) := by
  induction qs generalizing C with
  | nil => simp [addScalings]
  | cons q qs ih =>
    obtain ⟨h1, h2, h3, h4, h5⟩ := ih (C.append (.scaling m q.1 q.2.1 q.2.2))
    refine ⟨?_, ?_, ?_, ?_, ?_⟩
    · intro mem x; rw [addScalings, h1, invX_append]; rfl
    · intro x0 u
      rw [addScalings, h2]
      unfold Chain.startX
      rw [hasRemover_append_scaling]
      have : ∀ (al : Bool) (xout : RVec K m),
          (C.append (.scaling m q.1 q.2.1 q.2.2)).toX2 al u xout = C.toX2 al u xout := by
        intro al xout
        rw [toX2_append]
        cases C.toX2 al u xout <;> rfl
      rw [this]
      by_cases hm : m = n
      · rw [dif_pos hm, dif_pos hm, this]
      · rw [dif_neg hm, dif_neg hm]
    · intro f; rw [addScalings, h3, toObj_append]; simp [Trans.toObj]; ring
    · intro c i; rw [addScalings, h4, toEq_append]; simp [Trans.toEq, componentMult]; ring
    · intro c i; rw [addScalings, h5, toIneq_append]; simp [Trans.toIneq, componentMult]; ring

/-- The chain of `finalizeInitialization` consists of set-up transformations, so
`C15_derivatives_consistent` applies to it and to every extension by scalings. -/
theorem buildChain_valid {fv : FixedVarOpt} {perturb tol : K} {xl xu : RVec K n} {nFixed m : ℕ}
    {C : Chain K r s n m} (h : buildChain r s fv perturb tol xl xu nFixed = some ⟨m, C⟩)
    (qs : List (K × RVec K r × RVec K s)) : (addScalings C qs).Valid := by
  apply addScalings_valid
  unfold buildChain at h
  simp only [Option.map_eq_some_iff] at h
  obtain ⟨⟨m', C'⟩, h1, h2⟩ := h
  have hv : C'.Valid := by
    by_cases hn : nFixed > 0
    · rw [if_pos hn] at h1
      cases fv with
      | remove =>
        simp only [Option.map_eq_some_iff] at h1
        obtain ⟨R, hR, e⟩ := h1
        cases e
        exact ⟨⟨tol, xl, xu, nFixed, hR⟩, trivial⟩
      | relax =>
        simp only at h1
        split_ifs at h1 <;> (cases h1; simp [Chain.Valid, Trans.Valid])
      | none =>
        simp only at h1
        split_ifs at h1
        cases h1; simp [Chain.Valid]
    · rw [if_neg hn] at h1; cases h1; simp [Chain.Valid]
  split_ifs at h2 with hp
  · cases h2
    exact (valid_append _ _).mpr ⟨hv, trivial⟩
  · cases h2; exact hv

/-- What the base chain does to points. -/
theorem buildChain_points {fv : FixedVarOpt} {perturb tol : K} {xl xu : RVec K n} {nFixed m : ℕ}
    {C : Chain K r s n m} (h : buildChain r s fv perturb tol xl xu nFixed = some ⟨m, C⟩) :
    (∀ f, C.toObj f = f) ∧ (∀ c, C.toEq c = c) ∧ (∀ c, C.toIneq c = c) ∧
    (∀ mem x, ∃ y, C.invX mem x = some y ∧
      (fv = .remove ∧ 0 < nFixed →
        (∀ i, Close tol xl xu i → y i = xl i) ∧ (freeIdx tol xl xu).map y = List.ofFn x) ∧
      (¬ (fv = .remove ∧ 0 < nFixed) → List.ofFn y = List.ofFn x)) ∧
    (∀ x0 u, ∃ z, C.startX x0 u = some z ∧
      (fv = .remove ∧ 0 < nFixed → List.ofFn z = (freeIdx tol xl xu).map u) ∧
      (¬ (fv = .remove ∧ 0 < nFixed) → List.ofFn z = List.ofFn u)) := by
  unfold buildChain at h
  simp only [Option.map_eq_some_iff] at h
  obtain ⟨⟨m', C'⟩, h1, h2⟩ := h
  -- the three shapes of the first stage
  have shape : (¬ (fv = .remove ∧ 0 < nFixed) ∧
        ((⟨m', C'⟩ : Σ m, Chain K r s n m) = ⟨n, .nil n⟩ ∨
         (⟨m', C'⟩ : Σ m, Chain K r s n m) = ⟨n, .cons (.fixedRelaxer n) (.nil n)⟩)) ∨
      ((fv = .remove ∧ 0 < nFixed) ∧ ∃ R, mkRemover tol xl xu nFixed = some R ∧
        (⟨m', C'⟩ : Σ m, Chain K r s n m) = ⟨_, .cons (.remover R) (.nil _)⟩) := by
    by_cases hn : nFixed > 0
    · rw [if_pos hn] at h1
      cases fv with
      | remove =>
        simp only [Option.map_eq_some_iff] at h1
        obtain ⟨R, hR, e⟩ := h1
        exact Or.inr ⟨⟨rfl, hn⟩, R, hR, e.symm⟩
      | relax =>
        refine Or.inl ⟨by simp, ?_⟩
        simp only at h1
        split_ifs at h1
        · exact Or.inr (Option.some.inj h1).symm
        · exact Or.inl (Option.some.inj h1).symm
      | none =>
        refine Or.inl ⟨by simp, ?_⟩
        simp only at h1
        split_ifs at h1
        exact Or.inl (Option.some.inj h1).symm
    · rw [if_neg hn] at h1
      exact Or.inl ⟨fun hh => hn hh.2, Or.inl (Option.some.inj h1).symm⟩
  rcases shape with ⟨hno, e | e⟩ | ⟨hyes, R, hR, e⟩
  · cases e
    split_ifs at h2 with hp <;> cases h2 <;>
      refine ⟨fun f => rfl, fun c => rfl, fun c => rfl, fun mem x => ⟨x, rfl, fun hh => absurd hh hno,
        fun _ => rfl⟩, fun x0 u => ⟨u, ?_, fun hh => absurd hh hno, fun _ => rfl⟩⟩ <;>
      simp [Chain.startX, Chain.append, Chain.hasRemover, Chain.toX2, Trans.toX2]
  · cases e
    split_ifs at h2 with hp <;> cases h2 <;>
      refine ⟨fun f => rfl, fun c => rfl, fun c => rfl, fun mem x => ⟨x, rfl, fun hh => absurd hh hno,
        fun _ => rfl⟩, fun x0 u => ⟨u, ?_, fun hh => absurd hh hno, fun _ => rfl⟩⟩ <;>
      simp [Chain.startX, Chain.append, Chain.hasRemover, Chain.toX2, Trans.toX2]
  · cases e
    split_ifs at h2 with hp <;> cases h2
    all_goals
      refine ⟨fun f => rfl, fun c => rfl, fun c => rfl, fun mem x => ?_, fun x0 u => ?_⟩
      · obtain ⟨y, k1, k2, k3⟩ := C14_expand hR x (mem n)
        refine ⟨y, ?_, fun _ => ⟨k2, k3⟩, fun hh => absurd hyes hh⟩
        simpa [Chain.append, Chain.invX, Trans.invX, Remover.invX] using k1
      · obtain ⟨z, k1, k2⟩ := C14_restrict hR u x0
        refine ⟨z, ?_, fun _ => k2, fun hh => absurd hyes hh⟩
        simp [Chain.startX, Chain.append, Chain.hasRemover, Chain.toX2, Trans.toX2, k1]

/-- **C15 (values and points).** For every configuration for which the problem can be set up, and
after any number of scalings: the user's functions are evaluated at the point with removed
variables at their fixed values and the remaining ones at the solver's values; the solver gets the
user's values multiplied by all scale factors; and the starting point given by the user arrives
unchanged on the remaining variables, whatever the buffers contained. -/
theorem C15_values_and_points {fv : FixedVarOpt} {perturb tol : K} {xl xu : RVec K n}
    {nFixed m : ℕ} {C : Chain K r s n m}
    (h : buildChain r s fv perturb tol xl xu nFixed = some ⟨m, C⟩)
    (qs : List (K × RVec K r × RVec K s)) (mem : ∀ n, RVec K n) :
    (∀ x : RVec K m, ∃ y : RVec K n,
      (fv = .remove ∧ 0 < nFixed →
        (∀ i, Close tol xl xu i → y i = xl i) ∧ (freeIdx tol xl xu).map y = List.ofFn x) ∧
      (¬ (fv = .remove ∧ 0 < nFixed) → List.ofFn y = List.ofFn x) ∧
      (∀ f, (addScalings C qs).evalF mem f x =
        some ((f y).1, (qs.map fun q => q.1).prod * (f y).2)) ∧
      (∀ c, (addScalings C qs).evalC mem c x =
        some ((c y).1, fun i => (qs.map fun q => q.2.1 i).prod * (c y).2 i)) ∧
      (∀ d, (addScalings C qs).evalD mem d x =
        some ((d y).1, fun i => (qs.map fun q => q.2.2 i).prod * (d y).2 i))) ∧
    (∀ (x0 : RVec K m) (u : RVec K n), ∃ z, (addScalings C qs).startX x0 u = some z ∧
      (fv = .remove ∧ 0 < nFixed → List.ofFn z = (freeIdx tol xl xu).map u) ∧
      (¬ (fv = .remove ∧ 0 < nFixed) → List.ofFn z = List.ofFn u)) := by
  obtain ⟨b1, b2, b3, b4, b5⟩ := buildChain_points h
  obtain ⟨s1, s2, s3, s4, s5⟩ := addScalings_spec C qs
  refine ⟨fun x => ?_, fun x0 u => ?_⟩
  · obtain ⟨y, k1, k2, k3⟩ := b4 mem x
    refine ⟨y, k2, k3, ?_, ?_, ?_⟩
    · intro f; simp [Chain.evalF, s1, k1, s3, b1]
    · intro c
      simp only [Chain.evalC, s1, k1, Option.map_some]
      congr 2; funext i; rw [s4, b2]
    · intro c
      simp only [Chain.evalD, s1, k1, Option.map_some]
      congr 2; funext i; rw [s5, b3]
  · obtain ⟨z, k1, k2⟩ := b5 x0 u
    exact ⟨z, by rw [s2, k1], k2⟩

/-- A configuration with a removed variable, relaxed bounds and two scalings meets the
hypotheses. -/
example : ∃ (m : ℕ) (C : Chain ℚ 1 1 2 m), buildChain 1 1 .remove (1 / 10 ^ 8) 0
    (![5, 0] : RVec ℚ 2) ![5, 1] 1 = some ⟨m, C⟩ ∧
    ∀ x mem, ∃ y : RVec ℚ 2, y 0 = 5 ∧ (addScalings C [(1/2, fun _ => 1, fun _ => 1),
      (1/3, fun _ => 1, fun _ => 1)]).evalF mem (fun y => (true, y 0 + y 1)) x =
        some (true, 1/6 * (y 0 + y 1)) := by
  have hs : (mkRemover (0:ℚ) (![5, 0] : RVec ℚ 2) (![5, 1]) 1).isSome := by decide +kernel
  obtain ⟨R, hR⟩ := Option.isSome_iff_exists.mp hs
  have hb : buildChain 1 1 .remove (1 / 10 ^ 8) 0 (![5, 0] : RVec ℚ 2) ![5, 1] 1 =
      some ⟨2 - R.nFixed, (Chain.cons (.remover R) (.nil _)).append (.boundsRelaxer _)⟩ := by
    simp [buildChain, hR]
  refine ⟨_, _, hb, fun x mem => ?_⟩
  obtain ⟨y, h1, -, h3, -⟩ := (C15_values_and_points hb [((1/2 : ℚ), fun _ => 1, fun _ => 1),
      (1/3, fun _ => 1, fun _ => 1)] mem).1 x
  refine ⟨y, ?_, ?_⟩
  · have := (h1 ⟨rfl, one_pos⟩).1 0 (by simp [Close])
    simpa using this
  · rw [h3]; norm_num

/-- The problem cannot be set up (finding/limitation): fixed variables, no instruction how to handle
them, no relaxation. -/
theorem C15_no_instruction_exits (tol : K) (xl xu : RVec K n) (nFixed : ℕ) (h : 0 < nFixed) :
    buildChain r s .none 0 tol xl xu nFixed = none := by
  simp [buildChain, h]

/-! ## Reported objective value -/

/-- `get_obj_scale`, hiopNlpFormulation.cpp:1395-1401: the factor of the last scaling object. -/
def getObjScale (qs : List (K × RVec K r × RVec K s)) : K :=
  match qs.getLast? with
  | some q => q.1
  | none => 1

/-- **C15 (reported objective).** When the problem is solved for the first time the objective value
reported to the user is the user's objective at the user's point. -/
theorem C15_reported_objective {fv : FixedVarOpt} {perturb tol : K} {xl xu : RVec K n}
    {nFixed m : ℕ} {C : Chain K r s n m}
    (h : buildChain r s fv perturb tol xl xu nFixed = some ⟨m, C⟩)
    (qs : List (K × RVec K r × RVec K s)) (hqs : qs.length ≤ 1) (hpos : ∀ q ∈ qs, 0 < q.1)
    (f : K) : (addScalings C qs).toObj f / getObjScale qs = f := by
  rw [(addScalings_spec C qs).2.2.1, (buildChain_points h).1]
  match qs, hqs with
  | [], _ => simp [getObjScale]
  | [q], _ =>
    have := hpos q (by simp)
    simp [getObjScale]
    field_simp

/-- Solving twice with the same problem object (finding): the second run appends a second scaling,
the functions are multiplied by both factors, but only the last factor is divided out of the
reported objective. -/
theorem C15_reported_objective_second_run {m : ℕ} {C : Chain K r s n m} {fv : FixedVarOpt}
    {perturb tol : K} {xl xu : RVec K n} {nFixed : ℕ}
    (h : buildChain r s fv perturb tol xl xu nFixed = some ⟨m, C⟩)
    (q1 q2 : K × RVec K r × RVec K s) (h2 : 0 < q2.1) (f : K) :
    (addScalings C [q1, q2]).toObj f / getObjScale [q1, q2] = q1.1 * f := by
  rw [(addScalings_spec C _).2.2.1, (buildChain_points h).1]
  simp [getObjScale]
  field_simp

/-! ## The one-call Jacobian of dense problems -/

/-- `hiopNlpDenseConstraints::eval_Jac_c_d_interface_impl`, equality block, without a remover:
the rows of the user's Jacobian are copied and then passed through `apply_inv_to_jacob_eq`,
hiopNlpFormulation.cpp:1495-1543 (the scaling is the only transformation that changes
Jacobians then). -/
def denseOneCallJacEq (sc : RVec K r) (J : Fin r → RVec K n) : Fin r → RVec K n :=
  scaleRow J sc true

/-- One-call Jacobians of dense problems are scaled the wrong way round (finding): with factor
`1/2` and constraint `c(x) = x` the solver works with `x/2` and is given slope 2. -/
theorem C15_dense_one_call_jacobian_false :
    ∃ (sc : RVec ℚ 1) (J : Fin 1 → RVec ℚ 1), 0 < sc 0 ∧
      denseOneCallJacEq sc J 0 0 ≠ sc 0 * J 0 0 := by
  refine ⟨fun _ => 1/2, fun _ _ => 1, by norm_num, ?_⟩
  norm_num [denseOneCallJacEq, scaleRow]

end

end Hiop.Nlp
