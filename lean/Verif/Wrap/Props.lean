import Verif.Wrap.Model
import Mathlib.Tactic.Linarith
import Mathlib.Tactic.FieldSimp
import Mathlib.Tactic.Ring
import Mathlib.Algebra.Order.Field.Rat
import Mathlib.Data.Matrix.Mul

/-!
# C68: what the linear solver wrappers report is true, over all histories of calls

Specification: `Truth` says what is so about the matrices (numbers of positive and negative eigenvalues, which vectors
solve a system); `Good` says that a history of calls and answers agrees with it. The contracts say what the libraries
document about their status codes; sizes and status codes are otherwise arbitrary.
-/

namespace Hiop.Wrap

variable {M X S : Type}

/-- Facts about the matrices: order, numbers of positive and negative eigenvalues, solutions. -/
structure Truth (M X : Type) where
  n : ℕ
  pos : M → ℕ
  neg : M → ℕ
  Sol : M → X → X → Prop

/-- The matrix has a zero eigenvalue. -/
def Truth.Sing (T : Truth M X) (A : M) : Prop := T.pos A + T.neg A ≠ T.n

/-- The returned int is -1, or the matrix is nonsingular and the int is the number of its negative eigenvalues
(0 for solvers that do not compute it). -/
def CodeOk (T : Truth M X) (inertia : Bool) (A : M) (c : ℤ) : Prop :=
  c = -1 ∨ (¬ T.Sing A ∧ c = if inertia then (T.neg A : ℤ) else 0)

/-- A history is good: every returned int is right, and a `solve` that returns true has left a solution with the matrix
passed last, provided that the factorization of this matrix was reported to have succeeded. Calls return; a failed
assertion ends the history; behaviour is defined. `cur`: matrix and answer of the last `change`. -/
def Good (T : Truth M X) (inertia : Bool) : Option (M × ℤ) → List (Op M X × Ans X) → Prop
  | _, [] => True
  | _, (.change A, .code c) :: l => CodeOk T inertia A c ∧ Good T inertia (some (A, c)) l
  | cur, (.solve b, .sol ok x) :: l =>
    (ok = true → ∀ A c, cur = some (A, c) → c ≠ -1 → T.Sol A b x) ∧ Good T inertia cur l
  | _, (_, .abort) :: _ => True
  | _, _ => False

/-- The first call is a factorization. -/
def Starts : List (Op M X) → Prop
  | .solve _ :: _ => False
  | _ => True

/-! ## A wrapper whose two calls are right is good over all histories -/

theorem good_of_steps (W : Wrapper M X S) (T : Truth M X) (inertia : Bool) (Inv : Option (M × ℤ) → S → Prop)
    (P : M → Prop)
    (hc : ∀ cur s A, P A → Inv cur s → (∃ c, (W.change A s).2 = .code c ∧ CodeOk T inertia A c ∧
      Inv (some (A, c)) (W.change A s).1) ∨ (W.change A s).2 = .abort)
    (hs : ∀ cur s b, cur ≠ none → Inv cur s → (∃ ok x, (W.solve b s).2 = .sol ok x ∧
      (ok = true → ∀ A c, cur = some (A, c) → c ≠ -1 → T.Sol A b x) ∧ Inv cur (W.solve b s).1) ∨
      (W.solve b s).2 = .abort) :
    ∀ (l : List (Op M X)) cur s, Inv cur s → (cur = none → Starts l) → (∀ A, .change A ∈ l → P A) →
      Good T inertia cur (W.run s l) := by
  intro l
  induction l with
  | nil => intro cur s _ _ _; trivial
  | cons o l ih =>
    intro cur s hi hst hP
    have hP' : ∀ A, .change A ∈ l → P A := fun A hA => hP A (List.mem_cons_of_mem _ hA)
    cases o with
    | change A =>
      show Good T inertia cur ((.change A, (W.change A s).2) ::
        if (W.change A s).2.goesOn then W.run (W.change A s).1 l else [])
      rcases hc cur s A (hP A List.mem_cons_self) hi with ⟨c, h1, h2, h3⟩ | h1
      · rw [h1]
        exact ⟨h2, ih _ _ h3 (by intro h; cases h) hP'⟩
      · rw [h1]; trivial
    | solve b =>
      have hcur : cur ≠ none := fun h => hst h
      show Good T inertia cur ((.solve b, (W.solve b s).2) ::
        if (W.solve b s).2.goesOn then W.run (W.solve b s).1 l else [])
      rcases hs cur s b hcur hi with ⟨ok, x, h1, h2, h3⟩ | h1
      · rw [h1]
        exact ⟨h2, ih _ _ h3 (by intro h; exact absurd h hcur) hP'⟩
      · rw [h1]; trivial

/-! ## MA57 -/

/-- MA57's documentation: with status 0 the matrix is nonsingular and the number of negative eigenvalues is reported;
4: the matrix is singular; -3, -4: the real, integer array is too short, and a larger size is suggested; sizes
`needF`, `needI` suffice. Sizes stay such that 1.05 times them is an `int`. No other status occurs with the settings
used. A solve with status 0 is right. -/
structure Ma57Ok (T : Truth M X) (L : Ma57 M X) where
  needF : M → ℤ
  needI : M → ℤ
  zero : ∀ A f i, (L.bd A f i).code = 0 → ¬ T.Sing A ∧ (L.bd A f i).neg = T.neg A
  four : ∀ A f i, (L.bd A f i).code = 4 → T.Sing A
  real : ∀ A f i, (L.bd A f i).code = -3 → f < needF A ∧ f < (L.bd A f i).sugF
  int : ∀ A f i, (L.bd A f i).code = -4 → i < needI A ∧ i < (L.bd A f i).sugI
  codes : ∀ A f i, (L.bd A f i).code = 0 ∨ (L.bd A f i).code = 4 ∨ (L.bd A f i).code = -3 ∨ (L.bd A f i).code = -4
  sizes : ∀ A f i, (L.bd A f i).sugF ≤ 2 * 10 ^ 9 ∧ (L.bd A f i).sugI ≤ 2 * 10 ^ 9
  an : ∀ A, 0 ≤ L.anF A ∧ L.anF A ≤ 2 * 10 ^ 9 ∧ 0 ≤ L.anI A ∧ L.anI A ≤ 2 * 10 ^ 9
  dd : ∀ A b, (L.dd A b).1 = 0 → ¬ T.Sing A → T.Sol A b (L.dd A b).2

theorem pess_some {s : ℤ} (h0 : 0 ≤ s) (h : s ≤ 2 * 10 ^ 9) : ∃ f, pess s = some f ∧ s ≤ f := by
  unfold pess
  have h1 : s * 105 / 100 < 2 ^ 31 := by omega
  rw [if_pos ⟨h0, h1⟩]
  exact ⟨_, rfl, by omega⟩

/-- The factorization is called a finite number of times: fewer than `(needF - f) + (needI - i) + 1`. -/
theorem ma57_ends (asserts : Bool) {T : Truth M X} {L : Ma57 M X} (h : Ma57Ok T L) (A : M) :
    ∀ (N : ℕ) (f i : ℤ), 0 ≤ f → 0 ≤ i → (h.needF A - f).toNat + (h.needI A - i).toNat ≤ N →
      ∃ k ≤ N, ∃ c : ℤ, (ma57Round asserts L A (ma57Sizes asserts L A (f, i) k)).2 = some (.code c) ∧
        (T.Sing A → c = -1) ∧ (¬ T.Sing A → c = T.neg A) ∧
        0 ≤ (ma57Round asserts L A (ma57Sizes asserts L A (f, i) k)).1.1 ∧
        0 ≤ (ma57Round asserts L A (ma57Sizes asserts L A (f, i) k)).1.2 := by
  have shift : ∀ (z : ℤ × ℤ) (k : ℕ), ma57Sizes asserts L A z (k + 1) =
      ma57Sizes asserts L A (ma57Round asserts L A z).1 k := by
    intro z k
    induction k with
    | zero => rfl
    | succ k ih => rw [ma57Sizes, ih]; rfl
  intro N
  induction N with
  | zero =>
    intro f i hf hi hN
    refine ⟨0, le_refl _, ?_⟩
    show ∃ c : ℤ, (ma57Round asserts L A (f, i)).2 = some (.code c) ∧ _ ∧ _ ∧
      0 ≤ (ma57Round asserts L A (f, i)).1.1 ∧ 0 ≤ (ma57Round asserts L A (f, i)).1.2
    rcases h.codes A f i with hc | hc | hc | hc
    · refine ⟨(L.bd A f i).neg, ?_⟩
      obtain ⟨h1, h2⟩ := h.zero A f i hc
      simp only [ma57Round, hc, if_true]
      exact ⟨trivial, fun h => absurd h h1, fun _ => h2, hf, hi⟩
    · refine ⟨-1, ?_⟩
      have h1 := h.four A f i hc
      have hr : ma57Round asserts L A (f, i) = ((f, i), some (.code (-1))) := by simp [ma57Round, hc]
      rw [hr]
      exact ⟨rfl, fun _ => rfl, fun h => absurd h1 h, hf, hi⟩
    · have := h.real A f i hc; omega
    · have := h.int A f i hc; omega
  | succ N ih =>
    intro f i hf hi hN
    rcases h.codes A f i with hc | hc | hc | hc
    · refine ⟨0, by omega, (L.bd A f i).neg, ?_⟩
      show (ma57Round asserts L A (f, i)).2 = _ ∧ _ ∧ _ ∧
        0 ≤ (ma57Round asserts L A (f, i)).1.1 ∧ 0 ≤ (ma57Round asserts L A (f, i)).1.2
      obtain ⟨h1, h2⟩ := h.zero A f i hc
      simp only [ma57Round, hc, if_true]
      exact ⟨trivial, fun h => absurd h h1, fun _ => h2, hf, hi⟩
    · refine ⟨0, by omega, -1, ?_⟩
      show (ma57Round asserts L A (f, i)).2 = _ ∧ _ ∧ _ ∧
        0 ≤ (ma57Round asserts L A (f, i)).1.1 ∧ 0 ≤ (ma57Round asserts L A (f, i)).1.2
      have h1 := h.four A f i hc
      have hr : ma57Round asserts L A (f, i) = ((f, i), some (.code (-1))) := by simp [ma57Round, hc]
      rw [hr]
      exact ⟨rfl, fun _ => rfl, fun h => absurd h1 h, hf, hi⟩
    · obtain ⟨h1, h2⟩ := h.real A f i hc
      obtain ⟨g, hg, hle⟩ := pess_some (by omega) (h.sizes A f i).1
      have hr : (ma57Round asserts L A (f, i)).1 = (g, i) := by simp [ma57Round, hc, hg]
      obtain ⟨k, hk, c, h3⟩ := ih g i (by omega) hi (by omega)
      refine ⟨k + 1, by omega, c, ?_⟩
      rw [shift, hr]
      exact h3
    · obtain ⟨h1, h2⟩ := h.int A f i hc
      obtain ⟨g, hg, hle⟩ := pess_some (by omega) (h.sizes A f i).2
      have hr : (ma57Round asserts L A (f, i)).1 = (f, g) := by simp [ma57Round, hc, hg]
      obtain ⟨k, hk, c, h3⟩ := ih f g hf (by omega) (by omega)
      refine ⟨k + 1, by omega, c, ?_⟩
      rw [shift, hr]
      exact h3

/-- The rounds before the first that ends the loop do not end it, so the loop's answer is that of any ending round:
all rounds after the first ending one repeat it. -/
theorem ma57_loop (asserts : Bool) {T : Truth M X} {L : Ma57 M X} (h : Ma57Ok T L) (A : M) {f i : ℤ} (hf : 0 ≤ f)
    (hi : 0 ≤ i) : ∃ c : ℤ, (ma57Loop asserts L A (f, i)).2 = .code c ∧ (T.Sing A → c = -1) ∧
      (¬ T.Sing A → c = T.neg A) ∧ 0 ≤ (ma57Loop asserts L A (f, i)).1.1 ∧ 0 ≤ (ma57Loop asserts L A (f, i)).1.2 := by
  have hr : ∀ z : ℤ × ℤ, (ma57Round asserts L A z).2.isSome → (ma57Round asserts L A z).1 = z := by
    intro z hz
    revert hz
    unfold ma57Round
    dsimp only
    split_ifs <;> first | (intro _; rfl) | (split <;> intro hz <;> first | rfl | cases hz)
  obtain ⟨k, -, c, h1, h2, h3, h4, h5⟩ := ma57_ends asserts h A _ f i hf hi (le_refl _)
  have hex : ∃ k, (ma57Round asserts L A (ma57Sizes asserts L A (f, i) k)).2.isSome := ⟨k, by rw [h1]; rfl⟩
  have hfind := Nat.find_spec hex
  have hsame : ∀ j, ma57Sizes asserts L A (f, i) (Nat.find hex + j) = ma57Sizes asserts L A (f, i) (Nat.find hex) := by
    intro j
    induction j with
    | zero => rfl
    | succ j ih => rw [← Nat.add_assoc, ma57Sizes, ih, hr _ hfind]
  have hle : Nat.find hex ≤ k := Nat.find_min' hex (by rw [h1]; rfl)
  have hk : ma57Sizes asserts L A (f, i) k = ma57Sizes asserts L A (f, i) (Nat.find hex) := by
    rw [← hsame (k - Nat.find hex)]; congr 1; omega
  rw [hk] at h1 h4 h5
  refine ⟨c, ?_, h2, h3, ?_, ?_⟩
  · unfold ma57Loop; rw [dif_pos hex]; simp [h1]
  · unfold ma57Loop; rw [dif_pos hex]; exact h4
  · unfold ma57Loop; rw [dif_pos hex]; exact h5

/-- **C68 (MA57).** With a library that keeps its documentation, over every history of calls that begins with a
factorization: every `matrixChanged` returns, with -1 or the number of negative eigenvalues of a nonsingular matrix,
and every `solve` that returns true has solved the system with the matrix passed last. -/
theorem C68_ma57 (asserts : Bool) (T : Truth M X) (L : Ma57 M X) (h : Ma57Ok T L) (l : List (Op M X))
    (hl : Starts l) : Good T true none ((ma57 asserts L).run (ma57 asserts L).init l) := by
  refine good_of_steps (ma57 asserts L) T true
    (fun cur s => (∀ z, s.sizes = some z → 0 ≤ z.1 ∧ 0 ≤ z.2) ∧ (∀ A c, cur = some (A, c) → s.fact = some A ∧
      (c ≠ -1 → ¬ T.Sing A))) (fun _ => True) ?_ ?_ l none _ 
      (by constructor
          · intro z hz; cases hz
          · intro A c hc; cases hc) (fun _ => hl) (fun _ _ => trivial)
  · rintro cur ⟨sizes, fact⟩ A - ⟨hz, hcur⟩
    left
    have key : ∀ f i : ℤ, 0 ≤ f → 0 ≤ i → ∀ s' : Ma57St M, ∀ a : Ans X,
        (let r := ma57Loop asserts L A (f, i); ((⟨some r.1, some A⟩ : Ma57St M), r.2)) = (s', a) →
        ∃ c : ℤ, a = .code c ∧ CodeOk T true A c ∧ ((∀ z, s'.sizes = some z → 0 ≤ z.1 ∧ 0 ≤ z.2) ∧
          (∀ B c', some (A, c) = some (B, c') → s'.fact = some B ∧ (c' ≠ -1 → ¬ T.Sing B))) := by
      intro f i hf hi s' a he
      obtain ⟨c, h1, h2, h3, h4, h5⟩ := ma57_loop asserts h A hf hi
      simp only [Prod.mk.injEq] at he
      obtain ⟨he1, he2⟩ := he
      subst he1
      refine ⟨c, he2 ▸ h1, ?_, ?_, ?_⟩
      · by_cases hs : T.Sing A
        · exact Or.inl (h2 hs)
        · exact Or.inr ⟨hs, by simpa using h3 hs⟩
      · intro z hz'
        cases hz'
        exact ⟨h4, h5⟩
      · intro B c' he
        cases he
        exact ⟨rfl, fun hc hs => hc (h2 hs)⟩
    cases hsz : sizes with
    | some z =>
      obtain ⟨hf, hi⟩ := hz z hsz
      subst hsz
      exact key z.1 z.2 hf hi _ _ rfl
    | none =>
      obtain ⟨a1, a2, a3, a4⟩ := h.an A
      obtain ⟨f, hf, hf'⟩ := pess_some a1 a2
      obtain ⟨i, hi, hi'⟩ := pess_some a3 a4
      have he : (ma57 asserts L).change A ⟨none, fact⟩ =
          (let r := ma57Loop asserts L A (f, i); ((⟨some r.1, some A⟩ : Ma57St M), r.2)) := by
        simp only [ma57, hf, hi]
      rw [he]
      exact key f i (by omega) (by omega) _ _ rfl
  · rintro cur ⟨sizes, fact⟩ b hne ⟨hz, hcur⟩
    left
    cases cur with
    | none => exact absurd rfl hne
    | some p =>
      obtain ⟨A, c⟩ := p
      obtain ⟨h1, h2⟩ := hcur A c rfl
      simp only at h1
      subst h1
      refine ⟨_, _, rfl, ?_, hz, hcur⟩
      intro hok B c' he hc'
      cases he
      exact h.dd A b (by simpa using hok) (h2 hc')

/-- -1 is returned exactly for singular matrices, after at most `needF + needI + 1` factorizations. -/
theorem C68_ma57_singular (asserts : Bool) (T : Truth M X) (L : Ma57 M X) (h : Ma57Ok T L) (A : M) {f i : ℤ}
    (hf : 0 ≤ f) (hi : 0 ≤ i) :
    ((ma57Loop asserts L A (f, i)).2 = .code (-1) ↔ T.Sing A) ∧
    ∃ k : ℕ, (k : ℤ) ≤ max 0 (h.needF A) + max 0 (h.needI A) ∧
      (ma57Round asserts L A (ma57Sizes asserts L A (f, i) k)).2.isSome := by
  obtain ⟨c, h1, h2, h3, -⟩ := ma57_loop asserts h A hf hi
  obtain ⟨k, hk, c', h4, -⟩ := ma57_ends asserts h A _ f i hf hi (le_refl _)
  refine ⟨⟨?_, ?_⟩, k, by omega, by rw [h4]; rfl⟩
  · intro he
    by_contra hs
    have := h3 hs
    rw [h1] at he
    simp only [Ans.code.injEq] at he
    omega
  · intro hs; rw [h1, h2 hs]

/-- **C68 fails for MA57 with another error code**: with assertions off the same call is repeated for ever; with
assertions on every warning other than 4 ends the program. -/
theorem C68_ma57_hang_false (L : Ma57 M X) (A : M) (z : ℤ × ℤ) (c : ℤ)
    (hc : (L.bd A z.1 z.2).code = c) (h3 : c ≠ -3) (h4 : c ≠ -4) (hn : c < 0) :
    (ma57Loop false L A z).2 = .hang ∧ (ma57Loop true L A z).2 = .abort := by
  have hsz : ∀ k, ma57Sizes false L A z k = z := by
    intro k
    induction k with
    | zero => rfl
    | succ k ih =>
      rw [ma57Sizes, ih]
      unfold ma57Round
      simp only [hc]
      rw [if_neg (by omega), if_neg h3, if_neg h4, if_neg (by omega), if_neg (by simp), if_neg (by omega)]
  constructor
  · unfold ma57Loop
    rw [dif_neg]
    rintro ⟨k, hk⟩
    rw [hsz k] at hk
    unfold ma57Round at hk
    simp only [hc] at hk
    rw [if_neg (by omega), if_neg h3, if_neg h4, if_neg (by omega), if_neg (by simp), if_neg (by omega)] at hk
    cases hk
  · have hr : (ma57Round true L A z).2 = some .abort := by
      unfold ma57Round
      simp only [hc]
      rw [if_neg (by omega), if_neg h3, if_neg h4, if_neg (by omega), if_pos trivial]
    have hex : ∃ k, (ma57Round true L A (ma57Sizes true L A z k)).2.isSome := ⟨0, by show (ma57Round true L A z).2.isSome = true; rw [hr]; rfl⟩
    have h0 : Nat.find hex = 0 := (Nat.find_eq_zero hex).2 (by show (ma57Round true L A z).2.isSome = true; rw [hr]; rfl)
    unfold ma57Loop
    rw [dif_pos hex]
    simp only [h0]
    show ((ma57Round true L A z).2).getD .hang = .abort
    rw [hr]; rfl

/-- Warnings other than 4 are harmless for MA57, but end the program when assertions are on. -/
theorem C68_ma57_warning_false (L : Ma57 M X) (A : M) (z : ℤ × ℤ) (hc : 0 < (L.bd A z.1 z.2).code)
    (h4 : (L.bd A z.1 z.2).code ≠ 4) :
    (ma57Round true L A z).2 = some .abort ∧ (ma57Round false L A z).2 = some (.code (L.bd A z.1 z.2).neg) := by
  have h0 : (L.bd A z.1 z.2).code ≠ 0 := by omega
  have h1 : (L.bd A z.1 z.2).code ≠ -3 := by omega
  have h2 : (L.bd A z.1 z.2).code ≠ -4 := by omega
  constructor
  · simp [ma57Round, h0, h1, h2, h4]
  · simp [ma57Round, h0, h1, h2, h4, le_of_lt hc]

/-! Concrete truth: 1×1 matrices. -/

/-- 1×1 matrices over ℚ. -/
def T1 : Truth ℚ ℚ where
  n := 1
  pos a := if 0 < a then 1 else 0
  neg a := if a < 0 then 1 else 0
  Sol a b x := a * x = b

theorem T1_sing (a : ℚ) : T1.Sing a ↔ a = 0 := by
  unfold Truth.Sing T1
  dsimp only
  rcases lt_trichotomy a 0 with h | h | h
  · simp [h, not_lt.2 h.le, h.ne]
  · simp [h]
  · simp [h, not_lt.2 h.le, h.ne']

/-- An MA57 for 1×1 matrices that wants 10 reals and 20 integers, and asks for one more at a time. -/
def lib57 : Ma57 ℚ ℚ where
  anF _ := 1
  anI _ := 1
  bd a f i :=
    if f < 10 then ⟨-3, 0, f + 1, 0⟩ else if i < 20 then ⟨-4, 0, 0, i + 1⟩
    else if a = 0 then ⟨4, 0, 0, 0⟩ else ⟨0, if a < 0 then 1 else 0, 0, 0⟩
  dd a b := (0, b / a)

def lib57_ok : Ma57Ok T1 lib57 where
  needF _ := 10
  needI _ := 20
  zero a f i := by
    simp only [lib57, T1_sing]
    split_ifs <;> simp_all [T1]
  four a f i := by
    simp only [lib57, T1_sing]
    split_ifs <;> simp_all
  real a f i := by
    simp only [lib57]
    split_ifs <;> simp_all
  int a f i := by
    simp only [lib57]
    split_ifs <;> simp_all
  codes a f i := by
    simp only [lib57]
    split_ifs <;> simp
  sizes a f i := by
    simp only [lib57]
    split_ifs <;> simp <;> omega
  an a := by simp [lib57]
  dd a b _ h := by
    rw [T1_sing] at h
    show a * (b / a) = b
    field_simp

example : Good T1 true none ((ma57 true lib57).run (ma57 true lib57).init
    [.change 0, .change (-2), .solve 6, .solve 8, .change 5]) :=
  C68_ma57 true T1 lib57 lib57_ok _ trivial

/-! ## PARDISO -/

/-- PARDISO: without error the counts of positive and negative eigenvalues are right, and a solve is right. -/
structure PardisoOk (T : Truth M X) (L : Pardiso M X) : Prop where
  fact : ∀ A, (L.fact A).1 = 0 → (L.fact A).2.1 = T.pos A ∧ (L.fact A).2.2 = T.neg A
  back : ∀ A b, (L.fact A).1 = 0 → (L.back A b).1 = 0 → ¬ T.Sing A → T.Sol A b (L.back A b).2

/-- **C68 (PARDISO, symmetric)** when assertions are on, or the library reports no errors. -/
theorem C68_pardiso_partial (asserts : Bool) (T : Truth M X) (L : Pardiso M X) (h : PardisoOk T L)
    (he : asserts = true ∨ ((∀ A, (L.fact A).1 = 0) ∧ ∀ A b, (L.back A b).1 = 0)) (l : List (Op M X)) (hl : Starts l) :
    Good T true none ((pardisoSym asserts T.n L).run none l) := by
  refine good_of_steps (pardisoSym asserts T.n L) T true
    (fun cur s => ∀ A c, cur = some (A, c) → s = some A ∧ (L.fact A).1 = 0 ∧ (c ≠ -1 → ¬ T.Sing A)) (fun _ => True) ?_ ?_ l none _
    (by intro A c hc; cases hc) (fun _ => hl) (fun _ _ => trivial)
  · intro cur s A _ _
    by_cases hf : (L.fact A).1 = 0
    · left
      obtain ⟨h1, h2⟩ := h.fact A hf
      have hch : (pardisoSym asserts T.n L).change A s =
          (some A, .code (if (T.pos A : ℤ) + T.neg A ≠ T.n then -1 else T.neg A)) := by
        simp [pardisoSym, hf, h1, h2]
      rw [hch]
      refine ⟨_, rfl, ?_, ?_⟩
      · by_cases hs : (T.pos A : ℤ) + T.neg A ≠ T.n
        · rw [if_pos hs]; exact Or.inl rfl
        · rw [if_neg hs]
          refine Or.inr ⟨?_, by simp⟩
          unfold Truth.Sing
          omega
      · intro B c hB
        cases hB
        refine ⟨rfl, hf, ?_⟩
        intro hc hs
        apply hc
        rw [if_pos]
        unfold Truth.Sing at hs
        omega
    · right
      rcases he with he | he
      · simp [pardisoSym, he, hf]
      · exact absurd (he.1 A) hf
  · intro cur s b hne hi
    cases cur with
    | none => exact absurd rfl hne
    | some p =>
      obtain ⟨A, c⟩ := p
      obtain ⟨rfl, h2, h3⟩ := hi A c rfl
      by_cases hb : (L.back A b).1 = 0
      · left
        refine ⟨true, (L.back A b).2, by simp [pardisoSym, hb], ?_, by simpa [pardisoSym, hb] using hi⟩
        intro _ B c' hB hc'
        cases hB
        exact h.back A b h2 hb (h3 hc')
      · right
        rcases he with he | he
        · simp [pardisoSym, he, hb]
        · exact absurd (he.2 A b) hb

/-- **C68 fails for PARDISO** with assertions off: `solve` returns true although the library reported an error. -/
theorem C68_pardiso_false : ∃ (L : Pardiso ℚ ℚ), PardisoOk T1 L ∧
    ¬ Good T1 true none ((pardisoSym false 1 L).run none [.change 2, .solve 6]) := by
  refine ⟨⟨fun a => (0, if 0 < a then 1 else 0, if a < 0 then 1 else 0), fun _ b => (-1, b)⟩, ⟨?_, ?_⟩, ?_⟩
  · intro A _
    refine ⟨?_, ?_⟩ <;> simp only [T1] <;> split_ifs <;> rfl
  · intro A b _ h; simp at h
  · intro h
    have h2 := h.2.1 rfl 2 0 rfl (by norm_num)
    simp only [T1] at h2
    norm_num at h2

/-- The wrapper for general systems reports success for every matrix, also for a singular one. -/
theorem C68_pardiso_general_false : ∃ (L : Pardiso ℚ ℚ), PardisoOk T1 L ∧
    ¬ Good T1 false none ((pardisoNon true L).run none [.change 0]) := by
  refine ⟨⟨fun a => (0, if 0 < a then 1 else 0, if a < 0 then 1 else 0), fun a b => (0, b / a)⟩, ⟨?_, ?_⟩, ?_⟩
  · intro A _
    refine ⟨?_, ?_⟩ <;> simp only [T1] <;> split_ifs <;> rfl
  · intro A b _ _ h
    rw [T1_sing] at h
    show A * (b / A) = b
    field_simp
  · intro h
    rcases h.1 with h | h
    · norm_num at h
    · exact h.1 ((T1_sing 0).2 rfl)

example : Good T1 true none ((pardisoSym true 1
    ⟨fun a : ℚ => (0, if 0 < a then 1 else 0, if a < 0 then 1 else 0), fun a b => (0, b / a)⟩).run none
    [.change 0, .change (-3), .solve 6]) := by
  refine C68_pardiso_partial true T1 _ ⟨?_, ?_⟩ (Or.inl rfl) _ trivial
  · intro A _
    refine ⟨?_, ?_⟩ <;> simp only [T1] <;> split_ifs <;> rfl
  · intro A b _ _ h
    rw [T1_sing] at h
    show A * (b / A) = b
    field_simp

/-! ## STRUMPACK -/

/-- STRUMPACK: a successful factorization means a nonsingular matrix; a successful inertia computation is right; a
successful solve is right. -/
structure StrumpackOk (T : Truth M X) (L : Strumpack M X) : Prop where
  factor : ∀ A, L.factor A = .success → ¬ T.Sing A
  inertia : ∀ A, L.factor A = .success → (L.inertia A).1 = true → (L.inertia A).2 = T.neg A
  solve : ∀ A b, L.factor A = .success → (L.solve A b).1 = true → T.Sol A b (L.solve A b).2

/-- **C68 (STRUMPACK, symmetric)** when the inertia is computed and solves succeed, and assertions are on or there are
no unknown errors. -/
theorem C68_strumpack_partial (asserts : Bool) (T : Truth M X) (L : Strumpack M X) (h : StrumpackOk T L)
    (hi : ∀ A, L.factor A = .success → (L.inertia A).1 = true) (hs : ∀ A b, L.factor A = .success → (L.solve A b).1 = true)
    (he : asserts = true ∨ ∀ A, L.factor A ≠ .other) (l : List (Op M X)) (hl : Starts l) :
    Good T true none ((strumpackSym asserts L).run none l) := by
  refine good_of_steps (strumpackSym asserts L) T true
    (fun cur s => ∀ A c, cur = some (A, c) → s = some A ∧ (c ≠ -1 → L.factor A = .success)) (fun _ => True) ?_ ?_ l none _
    (by intro A c hc; cases hc) (fun _ => hl) (fun _ _ => trivial)
  · intro cur s A _ _
    cases hf : L.factor A with
    | success =>
      left
      have hch : (strumpackSym asserts L).change A s = (some A, .code (T.neg A)) := by
        simp [strumpackSym, hf, h.inertia A hf (hi A hf)]
      rw [hch]
      refine ⟨_, rfl, Or.inr ⟨h.factor A hf, by simp⟩, ?_⟩
      intro B c hB
      cases hB
      exact ⟨rfl, fun _ => hf⟩
    | zeroPivot =>
      left
      refine ⟨-1, by simp [strumpackSym, hf], Or.inl rfl, ?_⟩
      intro B c hB
      cases hB
      exact ⟨by simp [strumpackSym, hf], fun hc => absurd rfl hc⟩
    | other =>
      right
      rcases he with he | he
      · simp [strumpackSym, hf, he]
      · exact absurd hf (he A)
  · intro cur s b hne hinv
    cases cur with
    | none => exact absurd rfl hne
    | some p =>
      obtain ⟨A, c⟩ := p
      obtain ⟨rfl, h3⟩ := hinv A c rfl
      left
      refine ⟨true, (L.solve A b).2, rfl, ?_, hinv⟩
      intro _ B c' hB hc'
      cases hB
      exact h.solve A b (h3 hc') (hs A b (h3 hc'))

/-- **C68 fails for STRUMPACK**: when the computation of the inertia fails, 0 negative eigenvalues are reported for a
matrix that has one; when a solve fails, true is returned. -/
theorem C68_strumpack_false : ∃ (L : Strumpack ℚ ℚ), StrumpackOk T1 L ∧ (∀ A, L.factor A ≠ .other) ∧
    ¬ Good T1 true none ((strumpackSym true L).run none [.change (-2)]) ∧
    ¬ Good T1 true none ((strumpackSym true L).run none [.change 2, .solve 6]) := by
  refine ⟨⟨fun a => if a = 0 then .zeroPivot else .success, fun _ => (false, 0), fun _ b => (false, b)⟩,
    ⟨?_, ?_, ?_⟩, ?_, ?_, ?_⟩
  · intro A h hs
    rw [T1_sing] at hs
    simp [hs] at h
  · intro A _ h; simp at h
  · intro A b _ h; simp at h
  · intro A; dsimp only; split_ifs <;> simp
  · intro h
    have h1 : CodeOk T1 true (-2) 0 := by simpa [Wrapper.run, Wrapper.step, strumpackSym, Good] using h
    rcases h1 with h1 | h1
    · norm_num at h1
    · have := h1.2; simp [T1] at this
  · intro h
    have h2 : T1.Sol 2 6 6 := by
      have := h
      simp only [Wrapper.run, Wrapper.step, strumpackSym, Ans.goesOn] at this
      norm_num [Good] at this
      exact this.2
    simp only [T1] at h2
    norm_num at h2

/-- The wrapper for general systems reports success for every matrix. -/
theorem C68_strumpack_general (L : Strumpack M X) (l : List (Op M X)) :
    ∀ s, ∀ p ∈ (strumpackNon L).run s l, ∀ c, p.2 = .code c → c = 0 := by
  induction l with
  | nil => intro s p hp; cases hp
  | cons o l ih =>
    intro s p hp c hc
    simp only [Wrapper.run] at hp
    rcases List.mem_cons.1 hp with rfl | hp
    · cases o with
      | change A => simp only [Wrapper.step, strumpackNon] at hc; cases hc; rfl
      | solve b => cases s <;> simp [Wrapper.step, strumpackNon] at hc
    · split_ifs at hp with hg
      · exact ih _ p hp c hc
      · cases hp

example : Good T1 true none ((strumpackSym true (⟨fun a : ℚ => if a = 0 then .zeroPivot else .success,
    fun a => (true, if a < 0 then 1 else 0), fun a b => (true, b / a)⟩ : Strumpack ℚ ℚ)).run none
    [.change 0, .change (-3), .solve 6]) := by
  refine C68_strumpack_partial true T1 _ ⟨?_, ?_, ?_⟩ (fun _ _ => rfl) (fun _ _ _ => rfl) (Or.inl rfl) _ trivial
  · intro A h hs
    rw [T1_sing] at hs
    simp [hs] at h
  · intro A _ _; simp only [T1]; split_ifs <;> rfl
  · intro A b h _
    have hA : A ≠ 0 := by intro hA; simp [hA] at h
    show A * (b / A) = b
    field_simp

/-! ## Ginkgo -/

structure GinkgoOk (T : Truth M X) (L : Ginkgo M X) : Prop where
  fact : ∀ A, L.fact A = true → ¬ T.Sing A
  apply : ∀ A b, L.fact A = true → (L.apply A b).1 = true → T.Sol A b (L.apply A b).2

/-- **C68 (Ginkgo)** when all solves converge. The number of negative eigenvalues is not reported. -/
theorem C68_ginkgo_partial (T : Truth M X) (L : Ginkgo M X) (h : GinkgoOk T L)
    (hs : ∀ A b, L.fact A = true → (L.apply A b).1 = true) (l : List (Op M X)) (hl : Starts l) :
    Good T false none ((ginkgo L).run none l) := by
  refine good_of_steps (ginkgo L) T false
    (fun cur s => ∀ A c, cur = some (A, c) → s = some A ∧ (c ≠ -1 → L.fact A = true)) (fun _ => True) ?_ ?_ l none _
    (by intro A c hc; cases hc) (fun _ => hl) (fun _ _ => trivial)
  · intro cur s A _ _
    left
    cases hf : L.fact A with
    | true =>
      refine ⟨0, by simp [ginkgo, hf], Or.inr ⟨h.fact A hf, by simp⟩, ?_⟩
      intro B c hB
      cases hB
      exact ⟨rfl, fun _ => hf⟩
    | false =>
      refine ⟨-1, by simp [ginkgo, hf], Or.inl rfl, ?_⟩
      intro B c hB
      cases hB
      exact ⟨rfl, fun hc => absurd rfl hc⟩
  · intro cur s b hne hinv
    cases cur with
    | none => exact absurd rfl hne
    | some p =>
      obtain ⟨A, c⟩ := p
      obtain ⟨rfl, h3⟩ := hinv A c rfl
      left
      refine ⟨true, (L.apply A b).2, rfl, ?_, hinv⟩
      intro _ B c' hB hc'
      cases hB
      exact h.apply A b (h3 hc') (hs A b (h3 hc'))

/-- **C68 fails for Ginkgo**: `solve` returns true when the iterative solver did not converge; and a matrix with a
negative eigenvalue is reported to have none. -/
theorem C68_ginkgo_false : ∃ (L : Ginkgo ℚ ℚ), GinkgoOk T1 L ∧
    ¬ Good T1 false none ((ginkgo L).run none [.change 2, .solve 6]) ∧
    ¬ Good T1 true none ((ginkgo L).run none [.change (-2)]) := by
  refine ⟨⟨fun a => decide (a ≠ 0), fun _ b => (false, b)⟩, ⟨?_, ?_⟩, ?_, ?_⟩
  · intro A h hs
    rw [T1_sing] at hs
    simp [hs] at h
  · intro A b _ h; simp at h
  · intro h
    have h2 : T1.Sol 2 6 6 := h.2.1 rfl 2 0 (by norm_num) (by norm_num)
    simp only [T1] at h2
    norm_num at h2
  · intro h
    have h1 : CodeOk T1 true (-2) 0 := by simpa [Wrapper.run, Wrapper.step, ginkgo, Good] using h
    rcases h1 with h1 | h1
    · norm_num at h1
    · have := h1.2; simp [T1] at this

example : Good T1 false none ((ginkgo (⟨fun a : ℚ => decide (a ≠ 0), fun a b => (true, b / a)⟩ : Ginkgo ℚ ℚ)).run none
    [.change 0, .change (-3), .solve 6]) := by
  refine C68_ginkgo_partial T1 _ ⟨?_, ?_⟩ (fun _ _ _ => rfl) _ trivial
  · intro A h hs
    rw [T1_sing] at hs
    simp [hs] at h
  · intro A b h _
    have hA : A ≠ 0 := by simpa using h
    show A * (b / A) = b
    field_simp

/-! ## MAGMA -/

/-- MAGMA: after a factorization without error, an inertia computation that succeeds is right; solves with status 0
are right. An empty matrix is nonsingular and every vector solves its system. -/
structure MagmaOk (T : Truth M X) (L : Magma M X) : Prop where
  inert : ∀ A e, L.trf A = 0 → L.inert A = some e →
    e.2.1 = T.neg A ∧ e.2.2 = (T.n : ℤ) - T.pos A - T.neg A
  trs : ∀ A b, L.trf A = 0 → (L.trs A b).1 = 0 → ¬ T.Sing A → T.Sol A b (L.trs A b).2
  le : ∀ A, T.pos A + T.neg A ≤ T.n
  empty : T.n = 0 → ∀ A b, T.Sol A b b

theorem magmaCode_ok {T : Truth M X} {L : Magma M X} (h : MagmaOk T L) (A : M) :
    CodeOk T true A (magmaCode L A) ∧ (magmaCode L A ≠ -1 → L.trf A = 0 ∧ ¬ T.Sing A) := by
  unfold magmaCode
  by_cases h1 : L.trf A < 0
  · rw [if_pos h1]; exact ⟨Or.inl rfl, fun h => absurd rfl h⟩
  rw [if_neg h1]
  by_cases h2 : L.trf A > 0
  · rw [if_pos h2]; exact ⟨Or.inl rfl, fun h => absurd rfl h⟩
  rw [if_neg h2]
  have h0 : L.trf A = 0 := by omega
  cases he : L.inert A with
  | none => exact ⟨Or.inl rfl, fun h => absurd rfl h⟩
  | some e =>
    obtain ⟨h3, h4⟩ := h.inert A e h0 he
    dsimp only
    by_cases h5 : e.2.2 > 0
    · rw [if_pos h5]; exact ⟨Or.inl rfl, fun h => absurd rfl h⟩
    · rw [if_neg h5]
      have hle := h.le A
      have hs : ¬ T.Sing A := by unfold Truth.Sing; omega
      exact ⟨Or.inr ⟨hs, by simpa using h3⟩, fun _ => ⟨h0, hs⟩⟩

/-- **C68 (MAGMA, Bunch-Kaufman).** -/
theorem C68_magma (asserts : Bool) (T : Truth M X) (L : Magma M X) (h : MagmaOk T L) (l : List (Op M X))
    (hl : Starts l) : Good T true none ((magmaBuKa asserts T.n L).run none l) := by
  refine good_of_steps (magmaBuKa asserts T.n L) T true
    (fun cur s => ∀ A c, cur = some (A, c) → s = some A ∧ (c ≠ -1 → T.n ≠ 0 → L.trf A = 0 ∧ ¬ T.Sing A)) (fun _ => True) ?_ ?_ l none _
    (by intro A c hc; cases hc) (fun _ => hl) (fun _ _ => trivial)
  · intro cur s A _ _
    left
    by_cases hn : T.n = 0
    · have hle := h.le A
      refine ⟨0, by simp [magmaBuKa, hn], Or.inr ⟨by unfold Truth.Sing; omega, ?_⟩, ?_⟩
      · have : T.neg A = 0 := by omega
        simp [this]
      · intro B c hB
        cases hB
        exact ⟨by simp [magmaBuKa, hn], fun _ h0 => absurd hn h0⟩
    · obtain ⟨h1, h2⟩ := magmaCode_ok h A
      refine ⟨magmaCode L A, by simp [magmaBuKa, hn], h1, ?_⟩
      intro B c hB
      cases hB
      exact ⟨by simp [magmaBuKa, hn], fun hc _ => h2 hc⟩
  · intro cur s b hne hinv
    cases cur with
    | none => exact absurd rfl hne
    | some p =>
      obtain ⟨A, c⟩ := p
      obtain ⟨rfl, h3⟩ := hinv A c rfl
      by_cases hn : T.n = 0
      · left
        refine ⟨true, b, by simp [magmaBuKa, hn], ?_, by simpa [magmaBuKa, hn] using hinv⟩
        intro _ B c' _ _
        exact h.empty hn B b
      · by_cases ha : asserts = true ∧ (L.trs A b).1 < 0
        · right
          simp [magmaBuKa, hn, ha]
        · left
          have hch : (magmaBuKa asserts T.n L).solve b (some A) =
              (some A, .sol (decide ((L.trs A b).1 = 0)) (L.trs A b).2) := by
            simp only [magmaBuKa, if_neg hn]
            rw [if_neg ha]
          rw [hch]
          refine ⟨_, _, rfl, ?_, hinv⟩
          intro hok B c' hB hc'
          cases hB
          obtain ⟨h4, h5⟩ := h3 hc' hn
          exact h.trs A b h4 (by simpa using hok) h5

/-- **C68 (MAGMA, no pivoting)** for matrices that are not empty; for an empty one 1 negative eigenvalue is reported. -/
theorem C68_magma_nopiv_partial (T : Truth M X) (L : Magma M X) (h : MagmaOk T L) (hn : T.n ≠ 0) (l : List (Op M X))
    (hl : Starts l) : Good T true none ((magmaNopiv T.n L).run none l) := by
  refine good_of_steps (magmaNopiv T.n L) T true
    (fun cur s => ∀ A c, cur = some (A, c) → s = some A ∧ (c ≠ -1 → L.trf A = 0 ∧ ¬ T.Sing A)) (fun _ => True) ?_ ?_ l none _
    (by intro A c hc; cases hc) (fun _ => hl) (fun _ _ => trivial)
  · intro cur s A _ _
    left
    obtain ⟨h1, h2⟩ := magmaCode_ok h A
    refine ⟨magmaCode L A, by simp [magmaNopiv, hn], h1, ?_⟩
    intro B c hB
    cases hB
    exact ⟨by simp [magmaNopiv, hn], h2⟩
  · intro cur s b hne hinv
    cases cur with
    | none => exact absurd rfl hne
    | some p =>
      obtain ⟨A, c⟩ := p
      obtain ⟨rfl, h3⟩ := hinv A c rfl
      left
      by_cases h0 : (L.trs A b).1 = 0
      · refine ⟨true, (L.trs A b).2, by simp [magmaNopiv, hn, h0], ?_, by simpa [magmaNopiv, hn, h0] using hinv⟩
        intro _ B c' hB hc'
        cases hB
        obtain ⟨h4, h5⟩ := h3 hc'
        exact h.trs A b h4 h0 h5
      · refine ⟨false, b, by simp [magmaNopiv, hn, h0], by simp, by simpa [magmaNopiv, hn, h0] using hinv⟩

theorem C68_magma_nopiv_false (T : Truth M X) (L : Magma M X) (h : MagmaOk T L) (hn : T.n = 0) (A : M) :
    ¬ Good T true none ((magmaNopiv T.n L).run none [.change A]) := by
  intro hg
  have h1 : CodeOk T true A 1 := by simpa [Wrapper.run, Wrapper.step, magmaNopiv, hn, Good] using hg
  have := h.le A
  rcases h1 with h1 | h1
  · norm_num at h1
  · have h2 := h1.2
    simp only [if_true] at h2
    omega

/-- MAGMA for 1×1 matrices. -/
def libMagma : Magma ℚ ℚ where
  trf a := if a = 0 then 1 else 0
  inert a := some (if 0 < a then 1 else 0, if a < 0 then 1 else 0, if a = 0 then 1 else 0)
  trs a b := (0, b / a)

theorem libMagma_ok : MagmaOk T1 libMagma where
  inert a e h0 h := by
    simp only [libMagma, Option.some.injEq] at h
    subst h
    simp only [T1]
    rcases lt_trichotomy a 0 with h | h | h
    · simp [h, not_lt.2 h.le, h.ne]
    · simp [h]
    · simp [h, not_lt.2 h.le, h.ne']
  trs a b _ _ h := by
    rw [T1_sing] at h
    show a * (b / a) = b
    field_simp
  le a := by
    simp only [T1]
    split_ifs with h1 h2
    · exact absurd h1 (not_lt.2 h2.le)
    all_goals omega
  empty h := by simp [T1] at h

example : Good T1 true none ((magmaBuKa true 1 libMagma).run none [.change 0, .change (-3), .solve 6]) :=
  C68_magma true T1 libMagma libMagma_ok _ trivial

example : Good T1 true none ((magmaNopiv 1 libMagma).run none [.change 0, .change (-3), .solve 6]) :=
  C68_magma_nopiv_partial T1 libMagma libMagma_ok (by simp [T1]) _ trivial

/-! ## ReSolve -/

structure ReOk (T : Truth M X) (L : ReLib M X) : Prop where
  klu : ∀ A, L.klu A = true → ¬ T.Sing A
  dev : ∀ A, L.dev A = true → ¬ T.Sing A
  kluSolve : ∀ A b, L.klu A = true → T.Sol A b (L.kluSolve A b)
  devSolve : ∀ A b, ¬ T.Sing A → (L.devSolve A b).1 = true → T.Sol A b (L.devSolve A b).2

/-- No successful factorization is directly followed by another factorization: between two there is a solve. -/
def Spaced : List (Op M X × Ans X) → Prop
  | [] => True
  | (.change _, .code c) :: l =>
    (c ≠ -1 → match l with | (.change _, _) :: _ => False | _ => True) ∧ Spaced l
  | _ :: l => Spaced l

/-- **C68 (ReSolve with GLU)** if factorizations on the device of the matrices passed after the first successful
factorization succeed, and solves on the device succeed. -/
theorem C68_resolve_glu_partial (silent : Bool) (junk : X → X) (T : Truth M X) (L : ReLib M X) (h : ReOk T L)
    (hs : ∀ A b, L.dev A = true → (L.devSolve A b).1 = true) (l : List (Op M X)) (hl : Starts l)
    (hd : ∀ A, .change A ∈ l → L.dev A = true) :
    Good T false none ((resolve true silent junk L).run (resolve true silent junk L).init l) := by
  refine good_of_steps (resolve true silent junk L) T false
    (fun cur s => (∀ A c, cur = some (A, c) → c ≠ -1 → s.dev = some A ∧ L.dev A = true)) (fun A => L.dev A = true) ?_ ?_ l none _
    (by intro A c hc; cases hc) (fun _ => hl) hd
  · intro cur s A hd _
    left
    show ∃ c, (reChange true L A s).2 = .code c ∧ _ ∧ (∀ B c', some (A, c) = some (B, c') → c' ≠ -1 →
      (reChange true L A s).1.dev = some B ∧ L.dev B = true)
    unfold reChange
    dsimp only
    generalize (if s.first = true then _ else s) = s'
    by_cases h1 : (!s'.setup) = true
    · rw [if_pos h1]
      by_cases h2 : (s'.sym && L.klu A) = true
      · rw [if_pos h2]
        have hk : L.klu A = true := by simp at h2; exact h2.2
        refine ⟨0, rfl, Or.inr ⟨h.klu A hk, by simp⟩, ?_⟩
        intro B c hB _
        cases hB
        simp [hd]
      · rw [if_neg h2]
        refine ⟨-1, rfl, Or.inl rfl, ?_⟩
        intro B c hB hc
        cases hB
        exact absurd rfl hc
    · rw [if_neg h1]
      refine ⟨0, rfl, Or.inr ⟨h.dev A hd, by simp⟩, ?_⟩
      intro B c hB _
      cases hB
      simp [hd]
  · intro cur s b hne hinv
    left
    show ∃ ok x, (reSolveSolve true silent junk L b s).2 = .sol ok x ∧ _ ∧
      (∀ B c', cur = some (B, c') → c' ≠ -1 → (reSolveSolve true silent junk L b s).1.dev = some B ∧ L.dev B = true)
    have hsame : (reSolveSolve true silent junk L b s).1 = s := by
      unfold reSolveSolve
      cases s.dev <;> rfl
    have hsol : ∃ x, (reSolveSolve true silent junk L b s).2 = .sol true x := by
      unfold reSolveSolve
      cases s.dev <;> exact ⟨_, rfl⟩
    obtain ⟨x, hx⟩ := hsol
    refine ⟨true, x, hx, ?_, by rw [hsame]; exact hinv⟩
    intro _ B c hB hc
    obtain ⟨h1, h2⟩ := hinv B c hB hc
    have he : reSolveSolve true silent junk L b s = (s, .sol true (L.devSolve B b).2) := by
      simp [reSolveSolve, h1, hs B b h2]
    rw [he] at hx
    cases hx
    exact h.devSolve B b (h.dev B h2) (hs B b h2)

/-- ReSolve for 1×1 matrices: everything succeeds for nonsingular matrices. -/
def libRe : ReLib ℚ ℚ where
  analyze _ := true
  klu a := decide (a ≠ 0)
  kluSolve a b := b / a
  dev a := decide (a ≠ 0)
  devSolve a b := (true, b / a)

theorem libRe_ok : ReOk T1 libRe where
  klu a h := by rw [T1_sing]; simpa [libRe] using h
  dev a h := by rw [T1_sing]; simpa [libRe] using h
  kluSolve a b h := by
    have hA : a ≠ 0 := by simpa [libRe] using h
    show a * (b / a) = b
    field_simp
  devSolve a b h _ := by
    rw [T1_sing] at h
    show a * (b / a) = b
    field_simp

example (silent : Bool) (junk : ℚ → ℚ) : Good T1 false none ((resolve true silent junk libRe).run
    (resolve true silent junk libRe).init [.change 1, .change 2, .solve 6, .change (-3), .solve 6, .solve 7]) := by
  refine C68_resolve_glu_partial silent junk T1 libRe libRe_ok (fun _ _ _ => rfl) _ trivial ?_
  intro A hA
  simp only [List.mem_cons, Op.change.injEq, List.not_mem_nil, or_false, reduceCtorEq, false_or] at hA
  rcases hA with rfl | rfl | rfl <;> simp [libRe]

theorem run_head (W : Wrapper M X S) (s : S) (l : List (Op M X)) (A : M) (l' : List (Op M X)) (h : l = .change A :: l') :
    ∃ a r, W.run s l = (.change A, a) :: r := by subst h; exact ⟨_, _, rfl⟩

/-- **C68 (ReSolve with Rf)** if, moreover, a solve follows each successful factorization before the next
factorization. -/
theorem C68_resolve_rf_partial (silent : Bool) (junk : X → X) (T : Truth M X) (L : ReLib M X) (h : ReOk T L)
    (hs : ∀ A b, L.dev A = true → (L.devSolve A b).1 = true) (l : List (Op M X))
    (hd : ∀ A, .change A ∈ l → L.dev A = true)
    (hsp : Spaced ((resolve false silent junk L).run (resolve false silent junk L).init l)) :
    Good T false none ((resolve false silent junk L).run (resolve false silent junk L).init l) := by
  have main : ∀ (l : List (Op M X)) (cur : Option (M × ℤ)) (s : ReSt M), (∀ A, .change A ∈ l → L.dev A = true) →
      (∀ A c, cur = some (A, c) → c ≠ -1 → s.dev = some A ∧ L.dev A = true ∧
        (s.firstSolve = true → s.num = some A ∧ L.klu A = true)) →
      (s.setup = true → s.firstSolve = true → ∀ A l', l ≠ .change A :: l') →
      Spaced ((resolve false silent junk L).run s l) → Good T false cur ((resolve false silent junk L).run s l) := by
    intro l
    induction l with
    | nil => intro cur s _ _ _ _; trivial
    | cons o l ih =>
      intro cur s hd hinv hpend hsp
      have hd' : ∀ A, .change A ∈ l → L.dev A = true := fun A hA => hd A (List.mem_cons_of_mem _ hA)
      cases o with
      | change A =>
        have hdA := hd A List.mem_cons_self
        have hnp : s.setup = true → s.firstSolve = false := by
          intro h1
          by_contra h2
          exact hpend h1 (by simpa using h2) A l rfl
        have hstep : ∃ (c : ℤ) (s' : ReSt M), reChange false L A s = (s', .code c) ∧ CodeOk T false A c ∧
            (c ≠ -1 → s'.dev = some A ∧ (s'.firstSolve = true → s'.num = some A ∧ L.klu A = true)) ∧
            (c = -1 → s'.setup = false) := by
          unfold reChange
          dsimp only
          have hn : (if s.first = true then { s with first := !L.analyze A, sym := L.analyze A } else s).setup = s.setup ∧
              (if s.first = true then { s with first := !L.analyze A, sym := L.analyze A } else s).firstSolve =
                s.firstSolve := by split_ifs <;> exact ⟨rfl, rfl⟩
          revert hn
          generalize (if s.first = true then _ else s) = s1
          rintro ⟨hn1, hn2⟩
          by_cases h1 : (!s1.setup) = true
          · rw [if_pos h1]
            by_cases h2 : (s1.sym && L.klu A) = true
            · rw [if_pos h2]
              have hk : L.klu A = true := by simp at h2; exact h2.2
              exact ⟨0, _, rfl, Or.inr ⟨h.klu A hk, by simp⟩, fun _ => ⟨rfl, fun _ => ⟨rfl, hk⟩⟩, by simp⟩
            · rw [if_neg h2]
              exact ⟨-1, _, rfl, Or.inl rfl, fun hc => absurd rfl hc, fun _ => by simpa using h1⟩
          · rw [if_neg h1]
            have hf : s1.firstSolve = false := by
              rw [hn2]; apply hnp; rw [← hn1]; simpa using h1
            exact ⟨0, _, rfl, Or.inr ⟨h.dev A hdA, by simp⟩,
              fun _ => ⟨by simp [hdA], fun h3 => by simp [hf] at h3⟩, by simp⟩
        obtain ⟨c, s', he, h1, h2, h3⟩ := hstep
        have hrun : (resolve false silent junk L).run s (.change A :: l) =
            (.change A, .code c) :: (resolve false silent junk L).run s' l := by
          have : (resolve false silent junk L).step s (.change A) = (s', .code c) := he
          simp only [Wrapper.run, this, Ans.goesOn, if_true]
        rw [hrun] at hsp ⊢
        refine ⟨h1, ih _ s' hd' ?_ ?_ hsp.2⟩
        · intro B c' hB hc
          cases hB
          exact ⟨(h2 hc).1, hdA, (h2 hc).2⟩
        · intro h4 _ B l' hl
          have hc : c ≠ -1 := by intro hc; rw [h3 hc] at h4; cases h4
          have h5 := hsp.1 hc
          obtain ⟨a, r, hr⟩ := run_head (resolve false silent junk L) s' l B l' hl
          rw [hr] at h5
          exact h5
      | solve b =>
        have hstep : ∃ (x : X) (s' : ReSt M), reSolveSolve false silent junk L b s = (s', .sol true x) ∧
            s'.firstSolve = false ∧ s'.dev = s.dev ∧ (∀ A c, cur = some (A, c) → c ≠ -1 → T.Sol A b x) := by
          unfold reSolveSolve
          rw [if_neg (by simp)]
          cases hf : s.firstSolve with
          | true =>
            rw [if_pos rfl]
            cases hn : s.num with
            | some A =>
              refine ⟨_, _, rfl, rfl, rfl, ?_⟩
              intro B c hB hc
              obtain ⟨-, -, h3⟩ := hinv B c hB hc
              obtain ⟨h4, h5⟩ := h3 hf
              rw [hn] at h4
              cases h4
              exact h.kluSolve A b h5
            | none =>
              refine ⟨_, _, rfl, rfl, rfl, ?_⟩
              intro B c hB hc
              obtain ⟨-, -, h3⟩ := hinv B c hB hc
              obtain ⟨h4, -⟩ := h3 hf
              rw [hn] at h4
              cases h4
          | false =>
            rw [if_neg (by simp)]
            cases hv : s.dev with
            | some A =>
              refine ⟨_, s, rfl, hf, hv, ?_⟩
              intro B c hB hc
              obtain ⟨h3, h4, -⟩ := hinv B c hB hc
              rw [hv] at h3
              cases h3
              rw [hs A b h4]
              exact h.devSolve A b (h.dev A h4) (hs A b h4)
            | none =>
              refine ⟨_, s, rfl, hf, hv, ?_⟩
              intro B c hB hc
              obtain ⟨h3, -⟩ := hinv B c hB hc
              rw [hv] at h3
              cases h3
        obtain ⟨x, s', he, h1, h2, h3⟩ := hstep
        have hrun : (resolve false silent junk L).run s (.solve b :: l) =
            (.solve b, .sol true x) :: (resolve false silent junk L).run s' l := by
          have : (resolve false silent junk L).step s (.solve b) = (s', .sol true x) := he
          simp only [Wrapper.run, this, Ans.goesOn, if_true]
        rw [hrun] at hsp ⊢
        refine ⟨fun _ => h3, ih cur s' hd' ?_ ?_ hsp⟩
        · intro B c hB hc
          obtain ⟨h4, h5, -⟩ := hinv B c hB hc
          exact ⟨h2.trans h4, h5, fun h6 => by rw [h1] at h6; cases h6⟩
        · intro _ h4
          rw [h1] at h4
          cases h4
  refine main l none _ hd (fun A c hc => by cases hc) (fun h1 => by cases h1) hsp

example (silent : Bool) (junk : ℚ → ℚ) : Good T1 false none ((resolve false silent junk libRe).run
    (resolve false silent junk libRe).init [.change 2, .solve 6, .change (-3), .solve 6, .solve 7]) := by
  refine C68_resolve_rf_partial silent junk T1 libRe libRe_ok (fun _ _ _ => rfl) _ ?_ ?_
  · intro A hA
    simp only [List.mem_cons, Op.change.injEq, List.not_mem_nil, or_false, reduceCtorEq, false_or] at hA
    rcases hA with rfl | rfl <;> simp [libRe]
  · simp [Wrapper.run, Wrapper.step, resolve, reChange, reSolveSolve, libRe, Ans.goesOn, Spaced]

/-- After a failed factorization followed by a solve, no later factorization succeeds (Rf). -/
theorem C68_resolve_stuck (silent : Bool) (junk : ℚ → ℚ) (l : List ℚ) :
    ∀ p ∈ (resolve false silent junk libRe).run (resolve false silent junk libRe).init
      (.change 0 :: .solve 1 :: l.map .change), ∀ c, p.2 = .code c → c = -1 := by
  have main : ∀ (l : List ℚ) (s : ReSt ℚ), s.first = false → s.sym = false → s.setup = false →
      ∀ p ∈ (resolve false silent junk libRe).run s (l.map .change), ∀ c, p.2 = .code c → c = -1 := by
    intro l
    induction l with
    | nil => intro s _ _ _ p hp; cases hp
    | cons A l ih =>
      intro s h1 h2 h3 p hp c hc
      have he : (resolve false silent junk libRe).step s (.change A) = ({ s with num := none }, .code (-1)) := by
        simp [Wrapper.step, resolve, reChange, h1, h2, h3]
      simp only [List.map_cons, Wrapper.run, he, Ans.goesOn, if_true] at hp
      rcases List.mem_cons.1 hp with rfl | hp
      · cases hc; rfl
      · exact ih { s with num := none } h1 h2 h3 p hp c hc
  intro p hp c hc
  have h1 : (resolve false silent junk libRe).step (resolve false silent junk libRe).init (.change 0) =
      (⟨false, true, none, false, none, true⟩, .code (-1)) := by
    simp [Wrapper.step, resolve, reChange, libRe]
  have h2 : (resolve false silent junk libRe).step ⟨false, true, none, false, none, true⟩ (.solve 1) =
      (⟨false, false, none, false, none, false⟩, .sol true 1) := by
    simp [Wrapper.step, resolve, reSolveSolve]
  simp only [Wrapper.run, h1, h2, Ans.goesOn, if_true] at hp
  rcases List.mem_cons.1 hp with rfl | hp
  · cases hc; rfl
  · rcases List.mem_cons.1 hp with rfl | hp
    · cases hc
    · exact main l _ rfl rfl rfl p hp c hc

/-- **C68 fails for ReSolve with Rf: a stale factorization.** After two factorizations with no solve in between, the
first solve is with the matrix of the first of them: 2·x = 6 is answered by 6/1. -/
theorem C68_resolve_stale_false (silent : Bool) (junk : ℚ → ℚ) :
    (resolve false silent junk libRe).run (resolve false silent junk libRe).init [.change 1, .change 2, .solve 6] =
      [(.change 1, .code 0), (.change 2, .code 0), (.solve 6, .sol true 6)] ∧
    ¬ Good T1 false none ((resolve false silent junk libRe).run (resolve false silent junk libRe).init
      [.change 1, .change 2, .solve 6]) := by
  have he : (resolve false silent junk libRe).run (resolve false silent junk libRe).init
      [.change 1, .change 2, .solve 6] =
      [(.change 1, .code 0), (.change 2, .code 0), (.solve 6, .sol true 6)] := by
    simp [Wrapper.run, Wrapper.step, resolve, reChange, reSolveSolve, libRe, Ans.goesOn]
  refine ⟨he, ?_⟩
  rw [he]
  intro h
  have h2 : T1.Sol 2 6 6 := h.2.2.1 rfl 2 0 rfl (by norm_num)
  simp only [T1] at h2
  norm_num at h2

/-- **C68 fails for ReSolve: singular matrices.** Once a factorization has succeeded, singular matrices are reported
as factorized, and solves with them as successful. -/
theorem C68_resolve_singular_false (glu silent : Bool) (junk : ℚ → ℚ) :
    ∃ x, (resolve glu silent junk libRe).run (resolve glu silent junk libRe).init
      [.change 1, .solve 5, .change 0, .solve 6] =
      [(.change 1, .code 0), (.solve 5, .sol true 5), (.change 0, .code 0), (.solve 6, .sol true x)] ∧
    ¬ Good T1 false none ((resolve glu silent junk libRe).run (resolve glu silent junk libRe).init
      [.change 1, .solve 5, .change 0, .solve 6]) := by
  have he : ∃ x, (resolve glu silent junk libRe).run (resolve glu silent junk libRe).init
      [.change 1, .solve 5, .change 0, .solve 6] =
      [(.change 1, .code 0), (.solve 5, .sol true 5), (.change 0, .code 0), (.solve 6, .sol true x)] := by
    cases glu <;> cases silent <;>
      exact ⟨_, by simp [Wrapper.run, Wrapper.step, resolve, reChange, reSolveSolve, libRe, Ans.goesOn]; rfl⟩
  obtain ⟨x, he⟩ := he
  refine ⟨x, he, ?_⟩
  rw [he]
  intro h
  rcases h.2.2.1 with h1 | h1
  · norm_num at h1
  · exact h1.1 ((T1_sing 0).2 rfl)

/-! ## Cholesky of cuSOLVER -/

/-- cuSOLVER: after a successful factorization a successful search that finds no pivot (position -1) means a matrix
whose eigenvalues are all positive; solves that succeed are right then. -/
structure CholOk (T : Truth M X) (L : Chol M X) : Prop where
  pivot : ∀ A, L.factor A = true → (L.pivot A).1 = true → (L.pivot A).2 < 0 → ¬ T.Sing A ∧ T.neg A = 0
  solve : ∀ A b, L.factor A = true → ¬ T.Sing A → T.neg A = 0 → (L.solve A b).1 = true → T.Sol A b (L.solve A b).2

/-- **C68 (Cholesky)** if the search for a zero pivot succeeds. -/
theorem C68_chol_partial (T : Truth M X) (L : Chol M X) (h : CholOk T L) (hp : ∀ A, (L.pivot A).1 = true)
    (l : List (Op M X)) (hl : Starts l) : Good T true none ((chol L).run none l) := by
  refine good_of_steps (chol L) T true
    (fun cur s => ∀ A c, cur = some (A, c) → s = some A ∧ (c ≠ -1 → L.factor A = true ∧ ¬ T.Sing A ∧ T.neg A = 0))
    (fun _ => True) ?_ ?_ l none _ (by intro A c hc; cases hc) (fun _ => hl) (fun _ _ => trivial)
  · intro cur s A _ _
    left
    cases hf : L.factor A with
    | false =>
      refine ⟨-1, by simp [chol, hf], Or.inl rfl, ?_⟩
      intro B c hB
      cases hB
      exact ⟨by simp [chol, hf], fun hc => absurd rfl hc⟩
    | true =>
      have hch : (chol L).change A s = (some A, .code (if (L.pivot A).2 ≥ 0 then -1 else 0)) := by
        simp [chol, hf, hp A]
      rw [hch]
      by_cases h0 : (L.pivot A).2 ≥ 0
      · rw [if_pos h0]
        refine ⟨-1, rfl, Or.inl rfl, ?_⟩
        intro B c hB
        cases hB
        exact ⟨rfl, fun hc => absurd rfl hc⟩
      · rw [if_neg h0]
        obtain ⟨h1, h2⟩ := h.pivot A hf (hp A) (by omega)
        refine ⟨0, rfl, Or.inr ⟨h1, by simp [h2]⟩, ?_⟩
        intro B c hB
        cases hB
        exact ⟨rfl, fun _ => ⟨hf, h1, h2⟩⟩
  · intro cur s b hne hinv
    cases cur with
    | none => exact absurd rfl hne
    | some p =>
      obtain ⟨A, c⟩ := p
      obtain ⟨rfl, h3⟩ := hinv A c rfl
      left
      refine ⟨(L.solve A b).1, (L.solve A b).2, rfl, ?_, hinv⟩
      intro hok B c' hB hc'
      cases hB
      obtain ⟨h4, h5, h6⟩ := h3 hc'
      exact h.solve A b h4 h5 h6 hok

/-- **C68 fails for Cholesky** when the search for a zero pivot fails: a matrix is reported to be positive definite. -/
theorem C68_chol_false : ∃ (L : Chol ℚ ℚ), CholOk T1 L ∧
    ¬ Good T1 true none ((chol L).run none [.change (-2)]) := by
  refine ⟨⟨fun _ => true, fun _ => (false, 0), fun a b => (true, b / a)⟩, ⟨?_, ?_⟩, ?_⟩
  · intro A _ h; simp at h
  · intro A b _ h _ _
    rw [T1_sing] at h
    show A * (b / A) = b
    field_simp
  · intro h
    have h1 : CodeOk T1 true (-2) 0 := by simpa [Wrapper.run, Wrapper.step, chol, Good] using h
    rcases h1 with h1 | h1
    · norm_num at h1
    · have := h1.2; simp [T1] at this

example : Good T1 true none ((chol (⟨fun _ : ℚ => true, fun a => (true, if 0 < a then -1 else 0),
    fun a b => (true, b / a)⟩ : Chol ℚ ℚ)).run none [.change 0, .change 3, .solve 6]) := by
  refine C68_chol_partial T1 _ ⟨?_, ?_⟩ (fun _ => rfl) _ trivial
  · intro A _ _ h
    dsimp only at h
    split_ifs at h with h0
    · rw [T1_sing]
      exact ⟨h0.ne', by simp [T1, not_lt.2 h0.le]⟩
    · omega
  · intro A b _ h _ _
    rw [T1_sing] at h
    show A * (b / A) = b
    field_simp

/-! ### The permutations -/

theorem invPerm_spec {m : ℕ} {P : ℕ → ℕ} (hinj : ∀ i < m, ∀ j < m, P i = P j → i = j) (old : ℕ → ℕ) :
    ∀ k ≤ m, ∀ i < k, (List.range k).foldl (fun q i => fun j => if j = P i then i else q j) old (P i) = i := by
  intro k
  induction k with
  | zero => intro _ i hi; omega
  | succ k ih =>
    intro hk i hi
    rw [List.range_succ, List.foldl_append]
    show (if P i = P k then k else _) = i
    by_cases h : P i = P k
    · rw [if_pos h]
      exact (hinj i (by omega) k (by omega) h).symm
    · rw [if_neg h]
      have : i ≠ k := fun he => h (he ▸ rfl)
      exact ih (by omega) i (by omega)

open Finset in
/-- **C68 (Cholesky, ordering).** Let the ordering be a permutation and the library permute patterns as documented
(the permuted matrix, read with values gathered by the returned map, is the matrix with rows and columns permuted,
whatever the values). Whenever the library solves the system with the permuted matrix, `solve` solves the system with
the original matrix, for every ordering, every pattern and all values put in later. -/
theorem C68_chol_permuted {K : Type} [Field K] (m : ℕ) (row col : ℕ → ℕ) (order : ℕ → ℕ)
    (csrperm : (ℕ → ℕ) → (ℕ → ℕ) × (ℕ → ℕ) × (ℕ → ℕ)) (old : ℕ → ℕ)
    (hP : ∀ i < m, order i < m) (hinj : ∀ i < m, ∀ j < m, order i = order j → i = j)
    (hperm : ∀ (val : ℕ → K), ∀ i < m, ∀ j < m,
      csrEntry (csrperm order).1 (csrperm order).2.1 (gather val (csrperm order).2.2) i j =
        csrEntry row col val (order i) (order j))
    (val : ℕ → K) (lib : (ℕ → K) → ℕ → K) (b : ℕ → K) :
    let s := cholSetup m order csrperm old
    (∀ c : ℕ → K, ∀ i < m, ∑ j ∈ range m, csrEntry s.row s.col (cholValues s val) i j * lib c j = c i) →
    ∀ i < m, ∑ j ∈ range m, csrEntry row col val i j * cholSolve s lib b j = b i := by
  intro s hlib i hi
  have hbij : Set.BijOn order (range m : Finset ℕ) (range m : Finset ℕ) := by
    have hmaps : Set.MapsTo order (range m : Finset ℕ) (range m : Finset ℕ) := by
      intro i hi
      simp only [coe_range, Set.mem_Iio] at hi ⊢
      exact hP i hi
    have hinj' : Set.InjOn order (range m : Finset ℕ) := by
      intro i hi j hj h
      simp only [coe_range, Set.mem_Iio] at hi hj
      exact hinj i hi j hj h
    exact ⟨hmaps, hinj', surjOn_of_injOn_of_card_le order hmaps hinj' le_rfl⟩
  have hPT : ∀ k < m, s.PT (order k) = k := fun k hk => invPerm_spec hinj old m le_rfl k hk
  obtain ⟨k, hk, hki⟩ : ∃ k, k < m ∧ order k = i := by
    obtain ⟨k, hk, he⟩ := hbij.surjOn (show i ∈ ((range m : Finset ℕ) : Set ℕ) by simpa using hi)
    exact ⟨k, by simpa using hk, he⟩
  have hk2 := hlib (gather b s.P) k hk
  have hsum : ∑ j ∈ range m, csrEntry row col val i j * cholSolve s lib b j =
      ∑ j ∈ range m, csrEntry row col val i (order j) * cholSolve s lib b (order j) := by
    symm
    refine sum_bij (fun j _ => order j) ?_ ?_ ?_ ?_
    · intro j hj
      exact mem_range.2 (hP j (mem_range.1 hj))
    · intro a ha b hb h
      exact hinj a (mem_range.1 ha) b (mem_range.1 hb) h
    · intro y hy
      obtain ⟨x, hx, he⟩ := hbij.surjOn (show y ∈ ((range m : Finset ℕ) : Set ℕ) by exact_mod_cast hy)
      exact ⟨x, by simpa using hx, he⟩
    · intro j _; rfl
  rw [hsum]
  have hb : gather b s.P k = b i := by show b (order k) = b i; rw [hki]
  rw [← hb, ← hk2]
  refine sum_congr rfl fun j hj => ?_
  have hj := mem_range.1 hj
  have h1 : csrEntry s.row s.col (cholValues s val) k j = csrEntry row col val (order k) (order j) :=
    hperm val k hk j hj
  rw [h1, hki]
  congr 1
  show lib (gather b s.P) (s.PT (order j)) = _
  rw [hPT j hj]

/-- A 2×2 diagonal matrix, ordered backwards. -/
example : let row : ℕ → ℕ := fun i => i
    let col : ℕ → ℕ := fun k => k
    let order : ℕ → ℕ := fun i => 1 - i
    ∀ (val : ℕ → ℚ), ∀ i < 2, ∀ j < 2,
      csrEntry row col (gather val (fun k => 1 - k)) i j = csrEntry row col val (order i) (order j) := by
  intro row col order val i hi j hj
  have hi' : i = 0 ∨ i = 1 := by omega
  have hj' : j = 0 ∨ j = 1 := by omega
  rcases hi' with rfl | rfl <;> rcases hj' with rfl | rfl <;> simp [row, col, order, csrEntry, gather]

end Hiop.Wrap
