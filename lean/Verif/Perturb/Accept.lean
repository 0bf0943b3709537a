import Verif.Perturb.Props

/-!
# Property C11: which factorizations are accepted
-/

set_option linter.unusedSimpArgs false

namespace Hiop.Perturb

variable {σ : Type*}

/-- Outcome of asking the perturbation calculator: `1` with new perturbations, `-1` when it refused. -/
def Asked (r : Option (Bool × σ)) (code : Int) (s' : σ) : Prop :=
  (code = 1 ∧ r = some (true, s')) ∨ (code = -1 ∧ r = some (false, s'))

theorem ask_iff (r : Option (Bool × σ)) (code : Int) (s' : σ) :
    ask r = some (code, s') ↔ Asked r code s' := by
  unfold ask Asked
  cases r with
  | none => simp
  | some q =>
    obtain ⟨b, s⟩ := q
    cases b <;> simp <;> exact fun _ => eq_comm

theorem asked_ne_zero {r : Option (Bool × σ)} {s' : σ} : ¬ Asked r 0 s' := by
  simp [Asked]

/-- **C11.** The inertia-based acceptor accepts exactly when the number of negative eigenvalues is
the required one (zero when no equality or inequality multipliers are part of the system), leaving
the perturbations alone. -/
theorem C11_inertia_accepts_iff (c : Calc σ) (required negEig : Int) (force : Bool) (s s' : σ) :
    requireIC c required negEig force s = some (0, s') ↔
      negEig = max required 0 ∧ s' = s := by
  unfold requireIC
  split_ifs with h1 h2 h3 h3
  · rw [ask_iff]; constructor
    · exact fun h => absurd h asked_ne_zero
    · rintro ⟨rfl, -⟩; omega
  · rw [ask_iff]; constructor
    · exact fun h => absurd h asked_ne_zero
    · rintro ⟨h4, -⟩; omega
  · simp only [Option.some.injEq, Prod.mk.injEq, true_and]
    constructor
    · rintro rfl; exact ⟨by omega, rfl⟩
    · exact fun h => h.2.symm
  · rw [ask_iff]; constructor
    · exact fun h => absurd h asked_ne_zero
    · rintro ⟨h4, -⟩; omega
  · simp only [Option.some.injEq, Prod.mk.injEq, true_and]
    constructor
    · rintro rfl; exact ⟨by omega, rfl⟩
    · exact fun h => h.2.symm

/-- **C11.** A rejected factorization leads to a refactorization exactly when the calculator
delivers new perturbations and to failure exactly when it refuses; a singular matrix (negative
count) makes it ask for a singularity correction, a wrong inertia for an inertia correction. -/
theorem C11_inertia_rejects (c : Calc σ) (required negEig : Int) (force : Bool) (s s' : σ)
    (code : Int) (hne : negEig ≠ max required 0) :
    requireIC c required negEig force s = some (code, s') ↔
      Asked (if negEig < 0 ∧ 0 < required then c.sing s else c.wrong s) code s' := by
  unfold requireIC
  by_cases h1 : required > 0
  · by_cases h2 : negEig < 0
    · rw [if_pos h1, if_pos h2, if_pos ⟨h2, h1⟩, ask_iff]
    · rw [if_pos h1, if_neg h2, if_pos (by omega), if_neg (by simp [h2]), ask_iff]
  · rw [if_neg h1, if_pos (by omega), if_neg (by simp [h1]), ask_iff]

/-- **C11.** The inertia-free acceptor accepts exactly the nonsingular factorizations for which no
regularization is forced. -/
theorem C11_free_accepts_iff (c : Calc σ) (required negEig : Int) (force : Bool) (s s' : σ) :
    requireDWD c required negEig force s = some (0, s') ↔
      0 ≤ negEig ∧ force = false ∧ s' = s := by
  have ha : ∀ r : Option (Bool × σ), ¬ ask r = some (0, s') := fun r h =>
    asked_ne_zero ((ask_iff r 0 s').mp h)
  unfold requireDWD
  split_ifs with h1 h2 h3 h2 h3
  · exact ⟨fun h => absurd h (ha _), fun h => by omega⟩
  · simp only [Option.some.injEq, Prod.mk.injEq, true_and]
    exact ⟨fun h => ⟨by omega, h3, h.symm⟩, fun h => h.2.2.symm⟩
  · exact ⟨fun h => absurd h (ha _), fun h => absurd h.2.1 h3⟩
  · exact ⟨fun h => absurd h (ha _), fun h => by omega⟩
  · simp only [Option.some.injEq, Prod.mk.injEq, true_and]
    exact ⟨fun h => ⟨by omega, h3, h.symm⟩, fun h => h.2.2.symm⟩
  · exact ⟨fun h => absurd h (ha _), fun h => absurd h.2.1 h3⟩

/-- **C11.** Whatever the inertia-free acceptor does not accept it passes to the calculator. -/
theorem C11_free_rejects (c : Calc σ) (required negEig : Int) (force : Bool) (s s' : σ)
    (code : Int) (hne : negEig < 0 ∨ force = true) :
    requireDWD c required negEig force s = some (code, s') ↔
      Asked (if negEig < 0 ∧ 0 < required then c.sing s else c.wrong s) code s' := by
  unfold requireDWD
  by_cases h1 : required > 0
  · by_cases h2 : negEig < 0
    · rw [if_pos h1, if_pos h2, if_pos ⟨h2, h1⟩, ask_iff]
    · rw [if_pos h1, if_neg h2, if_neg (by simp [hne.resolve_left h2]), if_neg (by simp [h2]), ask_iff]
  · by_cases h2 : negEig < 0
    · rw [if_neg h1, if_pos h2, if_neg (by simp [h1]), ask_iff]
    · rw [if_neg h1, if_neg h2, if_neg (by simp [hne.resolve_left h2]), if_neg (by simp [h1]), ask_iff]

/-! ## The factorization loop -/

/-- `Attempt req solve s k t`: the `k`-th factorization (from 0) of a loop entered in state `s` is
made with the perturbations of state `t`: all earlier ones were answered by "refactorize". -/
inductive Attempt (req : Int → Bool → σ → Option (Int × σ)) (solve : ℕ → σ → Int) (s : σ) :
    ℕ → σ → Prop
  | first : Attempt req solve s 0 s
  | next {k t t'} : Attempt req solve s k t → req (solve k t) false t = some (1, t') →
      Attempt req solve s (k + 1) t'

theorem factLoop_spec (req : Int → Bool → σ → Option (Int × σ)) (solve : ℕ → σ → Int) (s0 : σ)
    (hcode : ∀ i f s code s', req i f s = some (code, s') → code = 0 ∨ code = 1 ∨ code = -1)
    (fuel num : ℕ) (s : σ) (hA : Attempt req solve s0 num s) (ok : Bool) (n : ℕ) (s' : σ)
    (hrun : factLoop req solve fuel num s = some (ok, n, s')) :
    n ≤ num + fuel ∧
    (ok = true → num < n ∧ ∃ t, Attempt req solve s0 (n - 1) t ∧
        req (solve (n - 1) t) false t = some (0, s')) ∧
    (ok = false → (n = num + fuel ∧ Attempt req solve s0 n s') ∨
      ∃ t, Attempt req solve s0 (n - 1) t ∧ req (solve (n - 1) t) false t = some (-1, s')) := by
  induction fuel generalizing num s with
  | zero =>
    simp only [factLoop, Option.some.injEq, Prod.mk.injEq] at hrun
    obtain ⟨rfl, rfl, rfl⟩ := hrun
    exact ⟨by omega, by simp, fun _ => Or.inl ⟨by omega, hA⟩⟩
  | succ fuel ih =>
    unfold factLoop at hrun
    cases hr : req (solve num s) false s with
    | none => simp [hr] at hrun
    | some q =>
      obtain ⟨r, t⟩ := q
      simp only [hr] at hrun
      split_ifs at hrun with h1 h2
      · simp only [Option.some.injEq, Prod.mk.injEq] at hrun
        obtain ⟨rfl, rfl, rfl⟩ := hrun
        refine ⟨by omega, by simp, fun _ => Or.inr ⟨s, hA, ?_⟩⟩
        rw [Nat.add_sub_cancel, hr, h1]
      · simp only [Option.some.injEq, Prod.mk.injEq] at hrun
        obtain ⟨rfl, rfl, rfl⟩ := hrun
        refine ⟨by omega, fun _ => ⟨by omega, s, hA, ?_⟩, by simp⟩
        rw [Nat.add_sub_cancel, hr, h2]
      · have h3 : r = 1 := by rcases hcode _ _ _ _ _ hr with h | h | h <;> [exact absurd h h2; exact h; exact absurd h h1]
        subst h3
        obtain ⟨a, b, c⟩ := ih (num + 1) t (.next hA hr) hrun
        refine ⟨by omega, fun h => ?_, fun h => ?_⟩
        · obtain ⟨b1, b2⟩ := b h; exact ⟨by omega, b2⟩
        · rcases c h with ⟨c1, c2⟩ | c
          · exact Or.inl ⟨by omega, c2⟩
          · exact Or.inr c

theorem Attempt.unique {req : Int → Bool → σ → Option (Int × σ)} {solve : ℕ → σ → Int} {s : σ}
    {k : ℕ} {t t' : σ} (h : Attempt req solve s k t) (h' : Attempt req solve s k t') : t = t' := by
  induction h generalizing t' with
  | first => cases h'; rfl
  | next _ hr ih =>
    cases h' with
    | next h2 hr2 =>
      have := ih h2
      subst this
      rw [hr] at hr2
      exact (Prod.mk.inj (Option.some.inj hr2)).2

/-- All but the last attempt were answered by "refactorize". -/
theorem Attempt.prior {req : Int → Bool → σ → Option (Int × σ)} {solve : ℕ → σ → Int} {s : σ}
    {k : ℕ} {t : σ} (h : Attempt req solve s k t) : ∀ j u, j < k → Attempt req solve s j u →
    ∃ u', req (solve j u) false u = some (1, u') := by
  induction h with
  | first => intro j u hj; omega
  | next hA hr ih =>
    rename_i k t t'
    intro j u hj hu
    rcases Nat.lt_succ_iff_lt_or_eq.mp hj with h1 | h1
    · exact ih j u h1 hu
    · subst h1
      rw [hu.unique hA]
      exact ⟨_, hr⟩

theorem requireIC_code (c : Calc σ) (required : Int) : ∀ i f s code s',
    requireIC c required i f s = some (code, s') → code = 0 ∨ code = 1 ∨ code = -1 := by
  intro i f s code s' h
  by_cases he : i = max required 0
  · have h1 := (C11_inertia_accepts_iff c required i f s s).mpr ⟨he, rfl⟩
    rw [h1] at h
    exact Or.inl (Prod.mk.inj (Option.some.inj h)).1.symm
  · rcases (C11_inertia_rejects c required i f s s' code he).mp h with h | h
    · exact Or.inr (Or.inl h.1)
    · exact Or.inr (Or.inr h.1)

/-- **C11.** With the inertia-based acceptor, the factorization loop of every linear system makes at
most eleven factorizations. It succeeds exactly when the last one has the required inertia, and that
factorization was made with the perturbations held at return; it fails only if the calculator
refused initial or further perturbations or all eleven factorizations were rejected; no
factorization with the required inertia is ever rejected. -/
theorem C11_factorize (c : Calc σ) (required : Int) (solve : ℕ → σ → Int) (s s' : σ) (ok : Bool)
    (n : ℕ) (hrun : factorize c (requireIC c required) solve s = some (ok, n, s')) :
    n ≤ 11 ∧
    (ok = true → ∃ s0, c.initial s = some (true, s0) ∧ 1 ≤ n ∧
      Attempt (requireIC c required) solve s0 (n - 1) s' ∧ solve (n - 1) s' = max required 0 ∧
      ∀ k t, k < n - 1 → Attempt (requireIC c required) solve s0 k t → solve k t ≠ max required 0) ∧
    (ok = false → c.initial s = some (false, s') ∨ ∃ s0, c.initial s = some (true, s0) ∧
      (∀ k t, k < n → Attempt (requireIC c required) solve s0 k t → solve k t ≠ max required 0) ∧
      (n = 11 ∨ ∃ t, Attempt (requireIC c required) solve s0 (n - 1) t ∧
        (c.wrong t = some (false, s') ∨ c.sing t = some (false, s')))) := by
  unfold factorize at hrun
  cases hi : c.initial s with
  | none => simp [hi] at hrun
  | some q =>
    obtain ⟨b, s0⟩ := q
    cases b
    · simp only [hi, Option.some.injEq, Prod.mk.injEq] at hrun
      obtain ⟨rfl, rfl, rfl⟩ := hrun
      exact ⟨by omega, by simp, fun _ => Or.inl rfl⟩
    · simp only [hi] at hrun
      obtain ⟨a, b, c'⟩ := factLoop_spec _ solve s0 (requireIC_code c required) 11 0 s0 .first ok n s' hrun
      have hprior : ∀ {m t}, Attempt (requireIC c required) solve s0 m t →
          ∀ k u, k < m → Attempt (requireIC c required) solve s0 k u → solve k u ≠ max required 0 := by
        intro m t hA k u hk hu he
        obtain ⟨u', h1⟩ := hA.prior k u hk hu
        have h2 := (C11_inertia_accepts_iff c required _ false u u).mpr ⟨he, rfl⟩
        rw [h1] at h2
        simp at h2
      refine ⟨by omega, fun h => ?_, fun h => Or.inr ⟨s0, rfl, ?_⟩⟩
      · obtain ⟨b1, t, b2, b3⟩ := b h
        obtain ⟨b4, rfl⟩ := (C11_inertia_accepts_iff c required _ false _ _).mp b3
        exact ⟨s0, rfl, by omega, b2, b4, hprior b2⟩
      · rcases c' h with ⟨c1, c2⟩ | ⟨t, c1, c2⟩
        · exact ⟨hprior c2, Or.inl (by omega)⟩
        · have hne : solve (n - 1) t ≠ max required 0 := by
            intro he
            have h2 := (C11_inertia_accepts_iff c required _ false t t).mpr ⟨he, rfl⟩
            rw [c2] at h2
            simp at h2
          refine ⟨?_, Or.inr ⟨t, c1, ?_⟩⟩
          · intro k u hk hu
            rcases Nat.lt_or_ge k (n - 1) with h1 | h1
            · exact hprior c1 k u h1 hu
            · obtain rfl : k = n - 1 := by omega
              rw [hu.unique c1]; exact hne
          · rcases (C11_inertia_rejects c required _ false t s' (-1) hne).mp c2 with h1 | ⟨-, h1⟩
            · simp at h1
            · split_ifs at h1
              · exact Or.inr h1
              · exact Or.inl h1

/-- Non-vacuity: a matrix with one negative eigenvalue too many until the primal perturbation is at
least `1e-3` is accepted at the third factorization of a new system. -/
example : ∃ s', factorize (calcP dflt) (requireIC (calcP dflt) 2)
    (fun _ s => open Classical in if s.vec.wx < 1e-3 then 3 else 2) (PState.fresh 1) =
      some (true, 3, s') ∧ s'.cur.wx = 1e-2 := by
  have h1 : initialP dflt (PState.fresh 1) =
      some (true, ⟨.zero, .zero, .zero, .unknown, .unknown, 0, .c0w0, 1⟩) := by
    simp [initialP, initCore, initC, startTest, PState.fresh, updateDegen, saveLast, setC, setW, setVec,
      Deltas.zero]
  have h2 : wrongP dflt ⟨.zero, .zero, .zero, .unknown, .unknown, 0, .c0w0, 1⟩ =
      some (true, ⟨⟨1e-4, 1e-4, 0, 0⟩, .zero, ⟨1e-4, 1e-4, 0, 0⟩, .no, .no, 0, .c0w0, 1⟩) := by
    norm_num [wrongP, updateDegen, guts, nextW, dflt, setVecP, Deltas.zero]
  have h3 : wrongP dflt ⟨⟨1e-4, 1e-4, 0, 0⟩, .zero, ⟨1e-4, 1e-4, 0, 0⟩, .no, .no, 0, .c0w0, 1⟩ =
      some (true, ⟨⟨1e-2, 1e-2, 0, 0⟩, .zero, ⟨1e-2, 1e-2, 0, 0⟩, .no, .no, 0, .c0w0, 1⟩) := by
    norm_num [wrongP, updateDegen, guts, nextW, dflt, setVecP, Deltas.zero]
  refine ⟨⟨⟨1e-2, 1e-2, 0, 0⟩, .zero, ⟨1e-2, 1e-2, 0, 0⟩, .no, .no, 0, .c0w0, 1⟩, ?_, rfl⟩
  have a0 : (Deltas.zero.wx : ℝ) < 1e-3 := by norm_num [Deltas.zero]
  have a1 : (1e-4 : ℝ) < 1e-3 := by norm_num
  have a2 : ¬ (1e-2 : ℝ) < 1e-3 := by norm_num
  simp [factorize, factLoop, calcP, h1, requireIC, a0, h2, ask, a1, h3, a2]

/-! ## Violation in inertia-free mode -/

/-- A perturbation state of the dual-first class with dual perturbation `x`. -/
def dualState (x : ℝ) : PState :=
  ⟨⟨0, 0, x, x⟩, .zero, ⟨0, 0, x, x⟩, .unknown, .unknown, 0, .noTest, 1⟩

theorem wrongD_dualState (x : ℝ) (hx : 0 < x) (hle : 100 * x ≤ 1e20) :
    wrongD dflt (dualState x) = some (true, dualState (100 * x)) := by
  have h1 : nextC dflt 1 x 0 = 100 * x := by
    unfold nextC; rw [if_neg hx.ne', if_pos (Or.inl rfl)]; rfl
  have hle' : 100 * x ≤ dflt.wMax := hle
  unfold wrongD
  simp only [dualState, updateDegen, ne_eq, not_true_eq_false, or_self, if_false]
  rw [dualImpl_spec _ _ rfl rfl]
  simp [Deltas.zero, h1, hle', setVecD]

/-- **C11**, violation: with the inertia-free acceptor the regularization routine reports success
even though every one of its twelve factorizations failed. -/
theorem C11_free_reports_failed_factorization :
    ∃ s', factorizeFree (requireDWD (calcD dflt) 1) (fun _ _ => -1) (dualState 1e-8) =
      some (true, -1, s') := by
  have loop : ∀ fuel num x, 0 < x → 100 ^ fuel * x ≤ 1e20 →
      ∃ s', freeLoop (requireDWD (calcD dflt) 1) (fun _ _ => -1) fuel num (-1) (dualState x) =
        some (true, -1, s') := by
    intro fuel
    induction fuel with
    | zero => intro num x _ _; exact ⟨_, rfl⟩
    | succ k ih =>
      intro num x hx hle
      have h100 : (1 : ℝ) ≤ 100 ^ k := one_le_pow₀ (by norm_num)
      have hle1 : 100 * x ≤ 1e20 := by
        rw [pow_succ] at hle
        nlinarith [mul_le_mul_of_nonneg_right h100 (by linarith : (0 : ℝ) ≤ 100 * x)]
      obtain ⟨s', hs'⟩ := ih (num + 1) (100 * x) (by linarith) (by rw [pow_succ] at hle; linarith)
      refine ⟨s', ?_⟩
      unfold freeLoop
      simp [requireDWD, calcD, wrongD_dualState x hx hle1, ask]
      exact hs'
  have h0 : wrongD dflt (dualState 1e-8) = some (true, dualState (100 * 1e-8)) :=
    wrongD_dualState _ (by norm_num) (by norm_num)
  obtain ⟨s', hs'⟩ := loop 11 0 (100 * 1e-8) (by norm_num) (by norm_num)
  refine ⟨s', ?_⟩
  simp [factorizeFree, requireDWD, calcD, h0, ask]
  exact hs'

end Hiop.Perturb
