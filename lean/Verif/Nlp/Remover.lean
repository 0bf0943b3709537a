import Verif.Nlp.Bounds

/-!
# Removal of fixed variables (C14)
-/

set_option linter.unusedSectionVars false

namespace Hiop.Nlp

open Hiop.Vec Hiop.Loop

variable {K : Type*} [Field K] [LinearOrder K] [IsStrictOrderedRing K] {n m : ℕ}

/-! ## Specification -/

/-- The removed variables: those whose bounds differ by at most the tolerance. -/
def Close (tol : K) (xl xu : RVec K n) (i : Fin n) : Prop := |xl i - xu i| ≤ tol * max 1 |xu i|

instance (tol : K) (xl xu : RVec K n) : DecidablePred (Close tol xl xu) :=
  fun i => by unfold Close; infer_instance

/-- The variables that stay, in the user's order. -/
def freeIdx (tol : K) (xl xu : RVec K n) : List (Fin n) :=
  (List.finRange n).filter fun i => ¬ Close tol xl xu i

/-! ## The index map -/

theorem setup_spec (tol : K) (xl xu : RVec K n) :
    let s := (List.finRange n).foldl (setupBody tol xl xu) ⟨fun _ => 0, 0⟩
    (∀ i, s.map i = if Close tol xl xu i then -1
      else (countBelow (fun j => ¬ Close tol xl xu j) i : ℤ)) ∧
    s.itRs = countBelow (fun j => ¬ Close tol xl xu j) n := by
  have key := foldl_inv (n := n)
    (fun k (s : RemState n) =>
      (∀ i : Fin n, i.val < k → s.map i = if Close tol xl xu i then -1
        else (countBelow (fun j => ¬ Close tol xl xu j) i : ℤ)) ∧
      s.itRs = countBelow (fun j => ¬ Close tol xl xu j) k)
    (setupBody tol xl xu) ⟨fun _ => 0, 0⟩ (by simp)
    (by
      rintro i s ⟨h1, h2⟩
      have hupd : ∀ (a : ℤ), (a = if Close tol xl xu i then -1
          else (countBelow (fun j => ¬ Close tol xl xu j) i : ℤ)) →
          ∀ j : Fin n, j.val < i.val + 1 → Function.update s.map i a j =
            if Close tol xl xu j then -1
            else (countBelow (fun j => ¬ Close tol xl xu j) j : ℤ) := by
        intro a ha j hj
        by_cases hji : j = i
        · subst hji; rw [Function.update_self]; exact ha
        · rw [Function.update_of_ne hji]
          exact h1 j (by have := Fin.val_ne_of_ne hji; omega)
      rw [countBelow_succ]
      by_cases h : Close tol xl xu i
      · have h' : |xl i - xu i| ≤ tol * max 1 |xu i| := h
        simp only [setupBody, if_pos h', h, not_true_eq_false, if_false, Nat.add_zero]
        exact ⟨hupd _ (by simp [h]), h2⟩
      · have h' : ¬ |xl i - xu i| ≤ tol * max 1 |xu i| := h
        simp only [setupBody, if_neg h', h, not_false_eq_true, if_true]
        exact ⟨hupd _ (by simp [h, h2]), by rw [h2]⟩)
  exact ⟨fun i => key.1 i i.isLt, key.2⟩

theorem card_close_add (p : Fin n → Prop) [DecidablePred p] :
    countBelow (fun j => ¬ p j) n + (Finset.univ.filter p).card = n := by
  rw [countBelow_all]
  have := Finset.card_filter_add_card_filter_not (s := (Finset.univ : Finset (Fin n))) p
  rw [Finset.card_univ, Fintype.card_fin] at this
  omega

/-- **C14 (set-up).** Setting up the removal succeeds exactly when the number of fixed variables
reported by bounds processing equals the number of removed variables. -/
theorem C14_setup_iff (tol : K) (xl xu : RVec K n) (nFixed : ℕ) :
    (mkRemover tol xl xu nFixed).isSome ↔
      nFixed = (Finset.univ.filter (Close tol xl xu)).card := by
  obtain ⟨-, h2⟩ := setup_spec tol xl xu
  have h3 := card_close_add (Close tol xl xu)
  unfold mkRemover setupMap
  simp only [h2, Option.isSome_map]
  split_ifs with h
  · simp; omega
  · simp; omega

/-- **C14 (set-up).** With the count from bounds processing the set-up succeeds whenever no
variable has its two bounds closer than the tolerance while the upper one is "infinite". -/
theorem C14_setup_succeeds (tol : K) (xl xu ixl0 ixu0 : RVec K n)
    (h : ∀ i, 10 ^ 20 ≤ xu i → ¬ |xl i - xu i| ≤ tol * max 1 |xu i|) :
    (mkRemover tol xl xu (processBounds tol xl xu ixl0 ixu0).nFixed).isSome := by
  rw [C14_setup_iff]
  obtain ⟨-, -, -, -, -, h6⟩ := C12_bounds_classified tol xl xu ixl0 ixu0
  rw [h6]
  congr 1
  ext i
  simp only [Finset.mem_filter, Finset.mem_univ, true_and, Fixed, Close]
  constructor
  · exact fun hh => hh.2
  · intro hh
    refine ⟨?_, hh⟩
    by_contra hn
    exact h i (not_lt.mp hn) hh

/-- Otherwise the set-up aborts on its internal assert (finding): the test for "fixed" used when
building the map lacks the finiteness guard used when counting. -/
theorem C14_setup_abort_example :
    mkRemover (n := 2) (1/100 : ℚ) ![10 ^ 20, 1] ![10 ^ 20, 1]
      (processBounds (1/100 : ℚ) (![10 ^ 20, 1] : RVec ℚ 2) (![10 ^ 20, 1])
        (fun _ => 0) (fun _ => 0)).nFixed = none := by
  have : (mkRemover (n := 2) (1/100 : ℚ) ![10 ^ 20, 1] ![10 ^ 20, 1]
      (processBounds (1/100 : ℚ) (![10 ^ 20, 1] : RVec ℚ 2) (![10 ^ 20, 1])
        (fun _ => 0) (fun _ => 0)).nFixed).isSome = false := by decide +kernel
  simpa using this

/-- What a successful set-up gives. -/
theorem mkRemover_spec {tol : K} {xl xu : RVec K n} {nFixed : ℕ} {R : Remover K n}
    (h : mkRemover tol xl xu nFixed = some R) :
    R.xl = xl ∧ R.nFixed = nFixed ∧
    (∀ i, R.map i = if Close tol xl xu i then -1
      else (countBelow (fun j => ¬ Close tol xl xu j) i : ℤ)) ∧
    n - R.nFixed = countBelow (fun j => ¬ Close tol xl xu j) n := by
  obtain ⟨h1, h2⟩ := setup_spec tol xl xu
  unfold mkRemover setupMap at h
  simp only [Option.map_eq_some_iff] at h
  obtain ⟨mp, hm, rfl⟩ := h
  split_ifs at hm with hc
  simp only [Option.some.injEq] at hm
  refine ⟨rfl, rfl, ?_, ?_⟩
  · intro i; rw [← hm]; exact h1 i
  · rw [← h2]; simp only; omega

/-- Reading a list of free entries in order, against the ranks. -/
theorem ofFn_eq_free {r : ℕ} (p : Fin n → Prop) [DecidablePred p] (hr : r = countBelow p n)
    (rs : RVec K r) (fs : RVec K n)
    (h : ∀ i, p i → ∀ hb : countBelow p i < r, rs ⟨countBelow p i, hb⟩ = fs i) :
    List.ofFn rs = ((List.finRange n).filter fun i => decide (p i)).map fs := by
  have hlen : ((List.finRange n).filter fun i => decide (p i)).length = r := by
    have := length_idxBelow p
    rw [idxBelow_all] at this
    rw [this, hr, countBelow_all]
  have key := foldl_inv (n := n) (S := Unit)
    (fun k _ => ∀ (j : ℕ) (hj : j < (idxBelow p k).length),
      p (idxBelow p k)[j] ∧ countBelow p (idxBelow p k)[j] = j)
    (fun _ _ => ()) () (by intro j hj; simp [idxBelow_zero] at hj)
    (by
      intro i s ih j hj
      have hl : ∀ k : Fin n, (idxBelow p k).length = countBelow p k := by
        intro k
        have := foldl_inv (n := k.val) (S := Unit)
          (fun q _ => q ≤ k.val → (idxBelow p q).length = countBelow p q) (fun _ _ => ()) ()
          (by simp [idxBelow_zero])
          (by
            intro i s h hle
            have h1 := idxBelow_succ p (⟨i.val, by omega⟩ : Fin n)
            have h2 := countBelow_succ p (⟨i.val, by omega⟩ : Fin n)
            simp only at h1 h2
            rw [h1, h2, List.length_append, h (by omega)]
            by_cases hp : p (⟨i.val, by omega⟩ : Fin n) <;> simp [hp])
        exact this le_rfl
      simp only [idxBelow_succ] at hj ⊢
      by_cases hp : p i
      · simp only [if_pos hp] at hj ⊢
        rw [List.length_append, List.length_singleton] at hj
        by_cases hjl : j < (idxBelow p i).length
        · rw [List.getElem_append_left hjl]
          exact ih j hjl
        · have hje : j = (idxBelow p i).length := by omega
          subst hje
          rw [List.getElem_append_right le_rfl]
          simp [hp, hl]
      · simp only [if_neg hp, List.append_nil] at hj ⊢
        exact ih j hj)
  rw [idxBelow_all] at key
  apply List.ext_getElem
  · simp [hlen]
  · intro j h1 h2
    rw [List.getElem_ofFn, List.getElem_map]
    rw [List.length_map] at h2
    obtain ⟨k1, k2⟩ := key j h2
    have hb : countBelow p (((List.finRange n).filter fun i => decide (p i))[j]) < r := by
      rw [k2]; simpa using h1
    rw [← h _ k1 hb]
    congr 1
    exact Fin.ext k2.symm

/-! ## Expansion and restriction -/

/-- Loop rule for loops that can fail. -/
theorem foldl_bind_inv {S : Type*} (P : ℕ → S → Prop) (f : S → Fin n → Option S) (s : S)
    (h0 : P 0 s)
    (hs : ∀ (i : Fin n) (s : S), P i s → ∃ s', f s i = some s' ∧ P (i + 1) s') :
    ∃ s', (List.finRange n).foldl (fun acc i => acc.bind fun a => f a i) (some s) = some s' ∧
      P n s' := by
  have := foldl_inv (n := n) (fun k (o : Option S) => ∃ s', o = some s' ∧ P k s')
    (fun acc i => acc.bind fun a => f a i) (some s) ⟨s, rfl, h0⟩
    (by
      rintro i o ⟨s', rfl, hp⟩
      obtain ⟨s'', h1, h2⟩ := hs i s' hp
      exact ⟨s'', by simpa using h1, h2⟩)
  exact this

theorem readAt_nat {r : ℕ} (a : RVec K r) (j : ℕ) (h : j < r) :
    readAt a (j : ℤ) = some (a ⟨j, h⟩) := by
  have : 0 ≤ (j : ℤ) ∧ ((j : ℤ)).toNat < r := ⟨by omega, by simpa using h⟩
  unfold readAt
  rw [dif_pos this]
  simp

theorem writeAt_nat {r : ℕ} (a : RVec K r) (j : ℕ) (h : j < r) (v : K) :
    writeAt a (j : ℤ) v = some (Function.update a ⟨j, h⟩ v) := by
  have : 0 ≤ (j : ℤ) ∧ ((j : ℤ)).toNat < r := ⟨by omega, by simpa using h⟩
  unfold writeAt
  rw [dif_pos this]
  simp

section
variable {tol : K} {xl xu : RVec K n} {nFixed : ℕ} {R : Remover K n}

theorem invVec_pointwise (h : mkRemover tol xl xu nFixed = some R)
    (rs : RVec K (n - R.nFixed)) (fs0 : RVec K n) :
    ∃ fs, R.invVec rs fs0 = some fs ∧
      (∀ i, Close tol xl xu i → fs i = xl i) ∧
      (∀ i, ¬ Close tol xl xu i →
        ∀ hb : countBelow (fun j => ¬ Close tol xl xu j) i < n - R.nFixed,
          rs ⟨countBelow (fun j => ¬ Close tol xl xu j) i, hb⟩ = fs i) := by
  obtain ⟨hxl, -, hmap, hr⟩ := mkRemover_spec h
  obtain ⟨fs, h1, h2⟩ := foldl_bind_inv (n := n)
    (fun k (a : RVec K n) => ∀ i : Fin n, i.val < k →
      (Close tol xl xu i → a i = xl i) ∧
      (¬ Close tol xl xu i →
        ∀ hb : countBelow (fun j => ¬ Close tol xl xu j) i < n - R.nFixed,
          rs ⟨countBelow (fun j => ¬ Close tol xl xu j) i, hb⟩ = a i))
    (fun a i => if R.map i < 0 then some (Function.update a i (R.xl i))
      else (readAt rs (R.map i)).map fun v => Function.update a i v)
    fs0 (by simp)
    (by
      intro i a ha
      have hlt : ¬ Close tol xl xu i →
          countBelow (fun j => ¬ Close tol xl xu j) i < n - R.nFixed := by
        intro hc; rw [hr]; exact countBelow_lt (fun j => ¬ Close tol xl xu j) hc i.isLt
      by_cases hc : Close tol xl xu i
      · refine ⟨Function.update a i (R.xl i), ?_, ?_⟩
        · rw [if_pos]; rw [hmap i, if_pos hc]; omega
        · intro j hj
          by_cases hji : j = i
          · subst hji
            refine ⟨fun _ => by rw [Function.update_self, hxl], fun hn => absurd hc hn⟩
          · rw [Function.update_of_ne hji]
            exact ha j (by have := Fin.val_ne_of_ne hji; omega)
      · have hm : R.map i = (countBelow (fun j => ¬ Close tol xl xu j) i : ℤ) := by
          rw [hmap i, if_neg hc]
        refine ⟨Function.update a i (rs ⟨_, hlt hc⟩), ?_, ?_⟩
        · rw [if_neg (by rw [hm]; omega), hm, readAt_nat rs _ (hlt hc)]; rfl
        · intro j hj
          by_cases hji : j = i
          · subst hji
            refine ⟨fun hn => absurd hn hc, fun _ hb => by rw [Function.update_self]⟩
          · rw [Function.update_of_ne hji]
            exact ha j (by have := Fin.val_ne_of_ne hji; omega))
  exact ⟨fs, h1, fun i => (h2 i i.isLt).1, fun i => (h2 i i.isLt).2⟩

/-- **C14 (points).** Whatever the full-space buffer held, expanding a reduced point succeeds and
gives a point with every removed variable at its fixed value (its lower bound) and the other
variables, read in the user's order, equal to the reduced point. -/
theorem C14_expand (h : mkRemover tol xl xu nFixed = some R)
    (rs : RVec K (n - R.nFixed)) (fs0 : RVec K n) :
    ∃ fs, R.invVec rs fs0 = some fs ∧
      (∀ i, Close tol xl xu i → fs i = xl i) ∧
      (freeIdx tol xl xu).map fs = List.ofFn rs := by
  obtain ⟨fs, h1, h2, h3⟩ := invVec_pointwise h rs fs0
  refine ⟨fs, h1, h2, ?_⟩
  obtain ⟨-, -, -, hr⟩ := mkRemover_spec h
  exact (ofFn_eq_free _ hr rs fs h3).symm

theorem toVec_pointwise (h : mkRemover tol xl xu nFixed = some R)
    (fs : RVec K n) (rs0 : RVec K (n - R.nFixed)) :
    ∃ rs, R.toVec fs rs0 = some rs ∧
      (∀ i, ¬ Close tol xl xu i →
        ∀ hb : countBelow (fun j => ¬ Close tol xl xu j) i < n - R.nFixed,
          rs ⟨countBelow (fun j => ¬ Close tol xl xu j) i, hb⟩ = fs i) := by
  obtain ⟨-, -, hmap, hr⟩ := mkRemover_spec h
  obtain ⟨rs, h1, h2⟩ := foldl_bind_inv (n := n)
    (fun k (a : RVec K (n - R.nFixed)) => ∀ i : Fin n, i.val < k → ¬ Close tol xl xu i →
        ∀ hb : countBelow (fun j => ¬ Close tol xl xu j) i < n - R.nFixed,
          a ⟨countBelow (fun j => ¬ Close tol xl xu j) i, hb⟩ = fs i)
    (fun a i => if R.map i ≥ 0 then writeAt a (R.map i) (fs i) else some a)
    rs0 (by simp)
    (by
      intro i a ha
      by_cases hc : Close tol xl xu i
      · refine ⟨a, ?_, ?_⟩
        · rw [if_neg]; rw [hmap i, if_pos hc]; omega
        · intro j hj hcj
          have hji : j ≠ i := fun hh => hcj (hh ▸ hc)
          exact ha j (by have := Fin.val_ne_of_ne hji; omega) hcj
      · have hm : R.map i = (countBelow (fun j => ¬ Close tol xl xu j) i : ℤ) := by
          rw [hmap i, if_neg hc]
        have hlt : countBelow (fun j => ¬ Close tol xl xu j) i < n - R.nFixed := by
          rw [hr]; exact countBelow_lt (fun j => ¬ Close tol xl xu j) hc i.isLt
        refine ⟨_, by rw [if_pos (by rw [hm]; omega), hm, writeAt_nat a _ hlt], ?_⟩
        intro j hj hcj hb
        by_cases hji : j = i
        · subst hji; rw [Function.update_self]
        · rw [Function.update_of_ne]
          · exact ha j (by have := Fin.val_ne_of_ne hji; omega) hcj hb
          · intro hh
            exact hji (countBelow_inj _ hcj hc (by simpa using hh)))
  exact ⟨rs, h1, fun i => h2 i i.isLt⟩

/-- **C14 (restriction).** Restricting a full-space vector (a gradient, a starting point, the
bounds) succeeds and gives exactly the entries of the remaining variables in the user's
order. -/
theorem C14_restrict (h : mkRemover tol xl xu nFixed = some R)
    (fs : RVec K n) (rs0 : RVec K (n - R.nFixed)) :
    ∃ rs, R.toVec fs rs0 = some rs ∧ List.ofFn rs = (freeIdx tol xl xu).map fs := by
  obtain ⟨rs, h1, h2⟩ := toVec_pointwise h fs rs0
  obtain ⟨-, -, -, hr⟩ := mkRemover_spec h
  exact ⟨rs, h1, ofFn_eq_free _ hr rs fs h2⟩

/-- **C14 (round trip, solver to user to solver).** -/
theorem C14_expand_restrict (h : mkRemover tol xl xu nFixed = some R)
    (rs rs0 : RVec K (n - R.nFixed)) (fs0 : RVec K n) :
    ∃ fs, R.invVec rs fs0 = some fs ∧ R.toVec fs rs0 = some rs := by
  obtain ⟨fs, h1, -, h2⟩ := C14_expand h rs fs0
  obtain ⟨rs', h3, h4⟩ := C14_restrict h fs rs0
  refine ⟨fs, h1, ?_⟩
  rw [h3, ← List.ofFn_injective (h4.trans h2)]

/-- **C14 (round trip, user to solver to user).** A point whose removed variables are at their
fixed values comes back unchanged. -/
theorem C14_restrict_expand (h : mkRemover tol xl xu nFixed = some R)
    (fs fs0 : RVec K n) (rs0 : RVec K (n - R.nFixed))
    (hfix : ∀ i, Close tol xl xu i → fs i = xl i) :
    ∃ rs, R.toVec fs rs0 = some rs ∧ R.invVec rs fs0 = some fs := by
  obtain ⟨rs, h1, h2⟩ := C14_restrict h fs rs0
  obtain ⟨fs', h3, h4, h5⟩ := C14_expand h rs fs0
  refine ⟨rs, h1, ?_⟩
  rw [h3]
  congr 1
  funext i
  by_cases hc : Close tol xl xu i
  · rw [h4 i hc, hfix i hc]
  · rw [h2] at h5
    exact List.map_inj_left.mp h5 i (by simp [freeIdx, hc])

/-! ## Jacobians -/

/-- **C14 (Jacobians, user to solver).** Every row of the reduced Jacobian consists of exactly the
user's entries for the remaining variables, in order, and nothing is written past its end. -/
theorem C14_jacobian_columns (h : mkRemover tol xl xu nFixed = some R)
    (r : ℕ) (Mfs Mrs0 : ℕ → K) :
    (∀ i < r, List.ofFn (fun c : Fin (n - R.nFixed) =>
        R.invMatrix r Mfs Mrs0 (i * (n - R.nFixed) + c.val)) =
      (freeIdx tol xl xu).map fun j => Mfs (i * n + j.val)) ∧
    (∀ a, r * (n - R.nFixed) ≤ a → R.invMatrix r Mfs Mrs0 a = Mrs0 a) := by
  obtain ⟨-, -, hmap, hr⟩ := mkRemover_spec h
  set w := n - R.nFixed with hw
  set rk : Fin n → ℕ := fun i => countBelow (fun j => ¬ Close tol xl xu j) i with hrk
  have hrklt : ∀ j, ¬ Close tol xl xu j → rk j < w := by
    intro j hc; rw [hr]; exact countBelow_lt (fun j => ¬ Close tol xl xu j) hc j.isLt
  -- effect of the inner loop on row `i`
  have inner : ∀ (i : ℕ) (M : ℕ → K),
      let M' := (List.finRange n).foldl
        (fun M j => if R.map j ≥ 0 then Function.update M (i * w + (R.map j).toNat)
          (Mfs (i * n + j.val)) else M) M
      (∀ j, ¬ Close tol xl xu j → M' (i * w + rk j) = Mfs (i * n + j.val)) ∧
      (∀ a, (a < i * w ∨ i * w + w ≤ a) → M' a = M a) := by
    intro i M
    have key := foldl_inv (n := n)
      (fun k (M' : ℕ → K) =>
        (∀ j : Fin n, j.val < k → ¬ Close tol xl xu j →
          M' (i * w + rk j) = Mfs (i * n + j.val)) ∧
        (∀ a, (a < i * w ∨ i * w + w ≤ a) → M' a = M a))
      (fun M j => if R.map j ≥ 0 then Function.update M (i * w + (R.map j).toNat)
          (Mfs (i * n + j.val)) else M) M (by simp)
      (by
        rintro j M' ⟨h1, h2⟩
        by_cases hc : Close tol xl xu j
        · rw [if_neg (by rw [hmap j, if_pos hc]; omega)]
          refine ⟨?_, h2⟩
          intro j' hj' hcj'
          have hji : j' ≠ j := fun hh => hcj' (hh ▸ hc)
          exact h1 j' (by have := Fin.val_ne_of_ne hji; omega) hcj'
        · have hm : R.map j = (rk j : ℤ) := by rw [hmap j, if_neg hc]
          rw [if_pos (by rw [hm]; omega), hm, Int.toNat_natCast]
          refine ⟨?_, ?_⟩
          · intro j' hj' hcj'
            by_cases hji : j' = j
            · subst hji; rw [Function.update_self]
            · rw [Function.update_of_ne]
              · exact h1 j' (by have := Fin.val_ne_of_ne hji; omega) hcj'
              · intro hh
                exact hji (countBelow_inj (fun j => ¬ Close tol xl xu j) hcj' hc
                  (by simp only [hrk] at hh; omega))
          · intro a ha
            have := hrklt j hc
            rw [Function.update_of_ne (by omega)]
            exact h2 a ha)
    exact ⟨fun j hc => key.1 j j.isLt hc, key.2⟩
  have outer := foldl_inv (n := r)
    (fun k (M' : ℕ → K) =>
      (∀ i, i < k → ∀ j, ¬ Close tol xl xu j → M' (i * w + rk j) = Mfs (i * n + j.val)) ∧
      (∀ a, k * w ≤ a → M' a = Mrs0 a))
    (fun M i => (List.finRange n).foldl
      (fun M j => if R.map j ≥ 0 then Function.update M (i.val * w + (R.map j).toNat)
          (Mfs (i.val * n + j.val)) else M) M) Mrs0 (by simp)
    (by
      rintro i M' ⟨h1, h2⟩
      obtain ⟨k1, k2⟩ := inner i.val M'
      refine ⟨?_, ?_⟩
      · intro i' hi' j hc
        by_cases hii : i' = i.val
        · subst hii; exact k1 j hc
        · have hlt : i' < i.val := by omega
          have := hrklt j hc
          have hle : (i' + 1) * w ≤ i.val * w := Nat.mul_le_mul_right w hlt
          rw [Nat.add_mul, Nat.one_mul] at hle
          rw [k2 _ (Or.inl (by omega))]
          exact h1 i' hlt j hc
      · intro a ha
        rw [Nat.add_mul, Nat.one_mul] at ha
        rw [k2 a (Or.inr ha)]
        exact h2 a (by omega))
  refine ⟨?_, fun a ha => outer.2 a ha⟩
  intro i hi
  refine ofFn_eq_free (fun j => ¬ Close tol xl xu j) hr _ (fun j => Mfs (i * n + j.val)) ?_
  intro j hc hb
  exact outer.1 i hi j hc

/-- **C14 (Jacobians, solver to user).** Expanding a Jacobian places every column of a remaining
variable at that variable's own position and zeroes the removed columns. -/
theorem C14_jacobian_expand (h : mkRemover tol xl xu nFixed = some R)
    (r : ℕ) (Mrs Mfs0 : ℕ → K) (i : ℕ) (hi : i < r) :
    (∀ j, Close tol xl xu j → R.toMatrix r Mrs Mfs0 (i * n + j.val) = 0) ∧
    (freeIdx tol xl xu).map (fun j => R.toMatrix r Mrs Mfs0 (i * n + j.val)) =
      List.ofFn (fun c : Fin (n - R.nFixed) => Mrs (i * (n - R.nFixed) + c.val)) := by
  obtain ⟨-, -, hmap, hr⟩ := mkRemover_spec h
  set w := n - R.nFixed with hw
  set g : ℕ → Fin n → K := fun i j => if R.map j < 0 then 0 else Mrs (i * w + (R.map j).toNat)
    with hg
  have inner : ∀ (i : ℕ) (M : ℕ → K),
      let M' := (List.finRange n).foldl
        (fun M j => if R.map j < 0 then Function.update M (i * n + j.val) 0
          else Function.update M (i * n + j.val) (Mrs (i * w + (R.map j).toNat))) M
      (∀ j : Fin n, M' (i * n + j.val) = g i j) ∧ (∀ a, a < i * n → M' a = M a) := by
    intro i M
    have key := foldl_inv (n := n)
      (fun k (M' : ℕ → K) =>
        (∀ j : Fin n, j.val < k → M' (i * n + j.val) = g i j) ∧
        (∀ a, a < i * n → M' a = M a))
      (fun M j => if R.map j < 0 then Function.update M (i * n + j.val) 0
          else Function.update M (i * n + j.val) (Mrs (i * w + (R.map j).toNat))) M (by simp)
      (by
        rintro j M' ⟨h1, h2⟩
        have hstep : (if R.map j < 0 then Function.update M' (i * n + j.val) 0
          else Function.update M' (i * n + j.val) (Mrs (i * w + (R.map j).toNat)))
            = Function.update M' (i * n + j.val) (g i j) := by
          simp only [hg]; split_ifs <;> rfl
        rw [hstep]
        refine ⟨?_, ?_⟩
        · intro j' hj'
          by_cases hji : j' = j
          · subst hji; rw [Function.update_self]
          · have := Fin.val_ne_of_ne hji
            rw [Function.update_of_ne (by omega)]
            exact h1 j' (by omega)
        · intro a ha
          rw [Function.update_of_ne (by omega)]
          exact h2 a ha)
    exact ⟨fun j => key.1 j j.isLt, key.2⟩
  have outer := foldl_inv (n := r)
    (fun k (M' : ℕ → K) => ∀ i, i < k → ∀ j : Fin n, M' (i * n + j.val) = g i j)
    (fun M i => (List.finRange n).foldl
      (fun M j => if R.map j < 0 then Function.update M (i.val * n + j.val) 0
          else Function.update M (i.val * n + j.val) (Mrs (i.val * w + (R.map j).toNat))) M) Mfs0
    (by simp)
    (by
      rintro i M' h1
      obtain ⟨k1, k2⟩ := inner i.val M'
      intro i' hi' j
      by_cases hii : i' = i.val
      · subst hii; exact k1 j
      · have hlt : i' < i.val := by omega
        have hle : (i' + 1) * n ≤ i.val * n := Nat.mul_le_mul_right n hlt
        rw [Nat.add_mul, Nat.one_mul] at hle
        have := j.isLt
        rw [k2 _ (by omega)]
        exact h1 i' hlt j)
  have hval : ∀ j : Fin n, R.toMatrix r Mrs Mfs0 (i * n + j.val) = g i j := outer i hi
  refine ⟨?_, ?_⟩
  · intro j hc
    rw [hval, hg]
    simp only
    rw [if_pos (by rw [hmap j, if_pos hc]; omega)]
  · refine (ofFn_eq_free (fun j => ¬ Close tol xl xu j) hr _ _ ?_).symm
    intro j hc hb
    rw [hval, hg]
    simp only
    rw [if_neg (by rw [hmap j, if_neg hc]; omega), hmap j, if_neg hc, Int.toNat_natCast]

/-! ## The cached full-space point -/

/-- A run of `apply_inv_to_x` calls: list of `(x, new_x)`; result: the full-space points handed
to the user, in order. -/
def invXRun (R : Remover K n) : RVec K n → List (RVec K (n - R.nFixed) × Bool) →
    Option (List (RVec K n))
  | _, [] => some []
  | cache, (x, newX) :: cs =>
    (R.invX cache x newX).bind fun fs => (invXRun R fs cs).map fun l => fs :: l

/-- The caller tells the truth: a call not flagged as new repeats the previous point. -/
def Truthful {r : ℕ} (prev : Option (RVec K r)) : List (RVec K r × Bool) → Prop
  | [] => True
  | (x, newX) :: cs => (newX = false → prev = some x) ∧ Truthful (some x) cs

/-- **C14 (histories).** For every truthful sequence of evaluations starting from any buffer
content, each point handed to the user has the removed variables at their fixed values and the
remaining variables at the solver's values for that call. -/
theorem C14_history (h : mkRemover tol xl xu nFixed = some R)
    (cs : List (RVec K (n - R.nFixed) × Bool)) (cache : RVec K n)
    (hcs : Truthful none cs) :
    ∃ pts, invXRun R cache cs = some pts ∧
      List.Forall₂ (fun (c : RVec K (n - R.nFixed) × Bool) (fs : RVec K n) =>
        (∀ i, Close tol xl xu i → fs i = xl i) ∧
        (freeIdx tol xl xu).map fs = List.ofFn c.1) cs pts := by
  have gen : ∀ (cs : List (RVec K (n - R.nFixed) × Bool)) (cache : RVec K n)
      (prev : Option (RVec K (n - R.nFixed))),
      (∀ x, prev = some x → (∀ i, Close tol xl xu i → cache i = xl i) ∧
        (freeIdx tol xl xu).map cache = List.ofFn x) →
      Truthful prev cs →
      ∃ pts, invXRun R cache cs = some pts ∧
      List.Forall₂ (fun (c : RVec K (n - R.nFixed) × Bool) (fs : RVec K n) =>
        (∀ i, Close tol xl xu i → fs i = xl i) ∧
        (freeIdx tol xl xu).map fs = List.ofFn c.1) cs pts := by
    intro cs
    induction cs with
    | nil => intro cache prev _ _; exact ⟨[], rfl, List.Forall₂.nil⟩
    | cons c cs ih =>
      obtain ⟨x, newX⟩ := c
      intro cache prev hprev ht
      obtain ⟨ht1, ht2⟩ := ht
      have hstep : ∃ fs, R.invX cache x newX = some fs ∧
          (∀ i, Close tol xl xu i → fs i = xl i) ∧
          (freeIdx tol xl xu).map fs = List.ofFn x := by
        cases newX with
        | true => exact C14_expand h x cache
        | false => exact ⟨cache, rfl, hprev x (ht1 rfl)⟩
      obtain ⟨fs, h1, h2⟩ := hstep
      obtain ⟨pts, h3, h4⟩ := ih fs (some x) (by intro y hy; cases hy; exact h2) ht2
      refine ⟨fs :: pts, ?_, List.Forall₂.cons h2 h4⟩
      simp only [invXRun, h1, Option.bind_some, h3, Option.map_some]
  exact gen cs cache none (by simp) hcs

/-! ## The point returned by `getSolution` -/

/-- What does hold of the returned point: the first `n - nFixed` entries are those of the
expanded solution; nothing is said of the rest. -/
theorem C14_returned_point_partial (h : mkRemover tol xl xu nFixed = some R)
    (x : RVec K (n - R.nFixed)) (cache out : RVec K n) :
    ∃ fs res, R.userX cache x out = some res ∧
      (∀ i, Close tol xl xu i → fs i = xl i) ∧ (freeIdx tol xl xu).map fs = List.ofFn x ∧
      (∀ i : Fin n, i.val < n - nFixed → res i = fs i) := by
  obtain ⟨fs, h1, h2, h3⟩ := C14_expand h x cache
  obtain ⟨-, hnf, -, -⟩ := mkRemover_spec h
  refine ⟨fs, fun i => if i.val < n - R.nFixed then fs i else out i, ?_, h2, h3, ?_⟩
  · simp [Remover.userX, Remover.invX, h1]
  · intro i hi; exact if_pos (by rw [hnf]; exact hi)

/-- If nothing is removed the returned point is the solver's point. -/
theorem C14_returned_point_none_removed (h : mkRemover tol xl xu 0 = some R)
    (x : RVec K (n - R.nFixed)) (cache out : RVec K n) :
    ∃ res, R.userX cache x out = some res ∧ List.ofFn res = List.ofFn x := by
  obtain ⟨fs, res, h1, -, h3, h4⟩ := C14_returned_point_partial h x cache out
  refine ⟨res, h1, ?_⟩
  have hres : res = fs := by funext i; exact h4 i (by simp)
  obtain ⟨-, hnf, -, hr⟩ := mkRemover_spec h
  rw [← h3, hres]
  have hall : ∀ i, ¬ Close tol xl xu i := by
    have hh := (C14_setup_iff tol xl xu 0).mp (by rw [h]; rfl)
    intro i hc
    have : i ∈ Finset.univ.filter (Close tol xl xu) := by simp [hc]
    rw [Finset.card_eq_zero.mp hh.symm] at this
    simp at this
  have : freeIdx tol xl xu = List.finRange n := by
    unfold freeIdx
    rw [List.filter_eq_self]
    intro i _; simp [hall i]
  rw [this, List.ofFn_eq_map]

end

/-- The full claim fails for the point returned by `getSolution` (finding): only as many entries
as there are remaining variables are copied, so the last entries of the user's array keep their
previous content. Here variable 0 of two is fixed at 5, the solver's value for variable 1 is 7,
and the user receives `(5, out 1)` whatever the solution. -/
theorem C14_returned_point_false :
    ∃ R : Remover ℚ 2, mkRemover 0 ![5, 0] ![5, 1] 1 = some R ∧
      ∀ (x : RVec ℚ (2 - R.nFixed)) (cache out : RVec ℚ 2),
        ∃ res, R.userX cache x out = some res ∧ res 1 = out 1 := by
  have hs : (mkRemover (0:ℚ) (![5, 0] : RVec ℚ 2) (![5, 1]) 1).isSome := by decide +kernel
  obtain ⟨R, hR⟩ := Option.isSome_iff_exists.mp hs
  refine ⟨R, hR, ?_⟩
  intro x cache out
  obtain ⟨fs, h1, -, -⟩ := C14_expand hR x cache
  obtain ⟨-, hnf, -, -⟩ := mkRemover_spec hR
  refine ⟨_, by simp [Remover.userX, Remover.invX, h1]; rfl, ?_⟩
  simp [hnf]

/-- A concrete instance: of four variables the second and the last are fixed. -/
example : (mkRemover (1/100 : ℚ) (![0, 5, 1, 2] : RVec ℚ 4) (![1, 5, 3, 2]) 2).map
    (fun R => List.ofFn R.map) = some [0, -1, 1, -1] := by decide +kernel

example : ∃ R : Remover ℚ 4, mkRemover (1/100 : ℚ) ![0, 5, 1, 2] ![1, 5, 3, 2] 2 = some R ∧
    Truthful (r := 2) none [(![7, 8], true), (![7, 8], false), (![9, 9], true)] := by
  have hs : (mkRemover (1/100 : ℚ) (![0, 5, 1, 2] : RVec ℚ 4) (![1, 5, 3, 2]) 2).isSome := by
    decide +kernel
  obtain ⟨R, hR⟩ := Option.isSome_iff_exists.mp hs
  exact ⟨R, hR, by simp [Truthful]⟩

end Hiop.Nlp
