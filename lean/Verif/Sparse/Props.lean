import Verif.Sparse.Model
import Mathlib.Algebra.BigOperators.Field
import Mathlib.Algebra.BigOperators.Group.Finset.Piecewise
import Mathlib.Algebra.Order.Field.Basic
import Mathlib.Tactic.Ring
import Mathlib.Tactic.Linarith
import Mathlib.Data.Fin.VecNotation

/-!
# C27: triplet matrices are their dense matrices
-/

set_option linter.unusedSectionVars false
set_option linter.unusedSimpArgs false

namespace Hiop.Sparse

open Hiop.Vec

variable {K : Type*} [Field K] [LinearOrder K] [IsStrictOrderedRing K] {p q s : ℕ}

/-! ## Specification -/

/-- The dense matrix of a list of triplets: entries at equal positions are added. -/
def entry (es : List (Ent K)) (i j : ℕ) : K :=
  (es.map fun e => if e.r = i ∧ e.c = j then e.v else 0).sum

/-- The dense matrix of a list of triplets holding one triangle of a symmetric matrix: every
off-diagonal triplet stands for two entries. -/
def symEntry (es : List (Ent K)) (i j : ℕ) : K :=
  (es.map fun e => (if e.r = i ∧ e.c = j then e.v else 0) +
    if e.r ≠ e.c ∧ e.c = i ∧ e.r = j then e.v else 0).sum

/-- All triplets lie in a `p` by `q` matrix. -/
def InRange (p q : ℕ) (es : List (Ent K)) : Prop := ∀ e ∈ es, e.r < p ∧ e.c < q

/-- Rows in nondecreasing order. -/
def RowSorted (es : List (Ent K)) : Prop := es.Pairwise fun a b => a.r ≤ b.r

/-- Rows in nondecreasing order, columns strictly increasing within a row. -/
def Sorted (es : List (Ent K)) : Prop := es.Pairwise fun a b => a.r < b.r ∨ a.r = b.r ∧ a.c < b.c

/-! ## Entries -/

@[simp] theorem entry_nil (i j : ℕ) : entry ([] : List (Ent K)) i j = 0 := rfl
theorem entry_cons (e : Ent K) (es : List (Ent K)) (i j : ℕ) :
    entry (e :: es) i j = (if e.r = i ∧ e.c = j then e.v else 0) + entry es i j := by
  simp [entry]
theorem entry_append (a b : List (Ent K)) (i j : ℕ) :
    entry (a ++ b) i j = entry a i j + entry b i j := by simp [entry]

@[simp] theorem symEntry_nil (i j : ℕ) : symEntry ([] : List (Ent K)) i j = 0 := rfl
theorem symEntry_cons (e : Ent K) (es : List (Ent K)) (i j : ℕ) :
    symEntry (e :: es) i j = ((if e.r = i ∧ e.c = j then e.v else 0) +
      if e.r ≠ e.c ∧ e.c = i ∧ e.r = j then e.v else 0) + symEntry es i j := by
  simp [symEntry]
theorem symEntry_append (a b : List (Ent K)) (i j : ℕ) :
    symEntry (a ++ b) i j = symEntry a i j + symEntry b i j := by simp [symEntry]

/-- The symmetric matrix is the stored matrix plus its transpose, the diagonal counted once. -/
theorem symEntry_eq (es : List (Ent K)) (i j : ℕ) :
    symEntry es i j = if i = j then entry es i i else entry es i j + entry es j i := by
  induction es with
  | nil => simp
  | cons e es ih =>
    rw [symEntry_cons, ih]
    by_cases h : i = j
    · subst h
      simp only [if_true, entry_cons]
      have : ¬ (e.r ≠ e.c ∧ e.c = i ∧ e.r = i) := by rintro ⟨a, b, c⟩; exact a (c.trans b.symm)
      rw [if_neg this, add_zero]
    · simp only [if_neg h, entry_cons]
      by_cases h1 : e.r = j ∧ e.c = i
      · have h2 : ¬ (e.r = i ∧ e.c = j) := by rintro ⟨a, b⟩; exact h (a.symm.trans h1.1)
        have h3 : e.r ≠ e.c ∧ e.c = i ∧ e.r = j := ⟨fun x => h (h1.2.symm.trans (x.symm.trans h1.1)), h1.2, h1.1⟩
        rw [if_neg h2, if_pos h3, if_pos h1]; ring
      · have h3 : ¬ (e.r ≠ e.c ∧ e.c = i ∧ e.r = j) := fun x => h1 ⟨x.2.2, x.2.1⟩
        rw [if_neg h3, if_neg h1]; ring

theorem symEntry_symm (es : List (Ent K)) (i j : ℕ) : symEntry es i j = symEntry es j i := by
  rw [symEntry_eq, symEntry_eq]
  by_cases h : i = j
  · subst h; simp
  · rw [if_neg h, if_neg (Ne.symm h), add_comm]

theorem entry_out_row {es : List (Ent K)} {i j : ℕ} (h : ∀ e ∈ es, e.r ≠ i) : entry es i j = 0 := by
  induction es with
  | nil => rfl
  | cons e es ih =>
    rw [entry_cons, ih fun e' he => h e' (List.mem_cons_of_mem _ he),
      if_neg fun x => h e List.mem_cons_self x.1, add_zero]

theorem entry_out_col {es : List (Ent K)} {i j : ℕ} (h : ∀ e ∈ es, e.c ≠ j) : entry es i j = 0 := by
  induction es with
  | nil => rfl
  | cons e es ih =>
    rw [entry_cons, ih fun e' he => h e' (List.mem_cons_of_mem _ he),
      if_neg fun x => h e List.mem_cons_self x.2, add_zero]

theorem sum_single (x : RVec K q) {c : ℕ} (h : c < q) (v : K) (P : Prop) [Decidable P] :
    ∑ j : Fin q, (if P ∧ c = (j : ℕ) then v else 0) * x j = if P then v * x ⟨c, h⟩ else 0 := by
  by_cases hP : P
  · rw [if_pos hP, Finset.sum_eq_single ⟨c, h⟩]
    · rw [if_pos ⟨hP, rfl⟩]
    · intro j _ hj
      rw [if_neg, zero_mul]
      rintro ⟨_, e⟩
      exact hj (Fin.ext e.symm)
    · intro h'; exact absurd (Finset.mem_univ _) h'
  · rw [if_neg hP]
    refine Finset.sum_eq_zero fun j _ => ?_
    rw [if_neg fun h => hP h.1, zero_mul]

/-! ## Products -/

theorem inRange_cons {e : Ent K} {es : List (Ent K)} (h : InRange p q (e :: es)) :
    (e.r < p ∧ e.c < q) ∧ InRange p q es :=
  ⟨h e List.mem_cons_self, fun e' he => h e' (List.mem_cons_of_mem _ he)⟩

theorem rd_in (x : RVec K q) {k : ℕ} (h : k < q) : rd x k = some (x ⟨k, h⟩) := dif_pos h
theorem bump_in (y : RVec K p) {k : ℕ} (h : k < p) (a : K) :
    bump y k a = some (Function.update y ⟨k, h⟩ (y ⟨k, h⟩ + a)) := dif_pos h

theorem addEnt_in (alpha : K) (x : RVec K q) (y : RVec K p) (e : Ent K) (h1 : e.r < p)
    (h2 : e.c < q) : addEnt alpha x y e
      = some (Function.update y ⟨e.r, h1⟩ (y ⟨e.r, h1⟩ + alpha * x ⟨e.c, h2⟩ * e.v)) := by
  rw [addEnt, rd_in x h2, Option.bind_some, bump_in y h1]
theorem addEntT_in (alpha : K) (x : RVec K p) (y : RVec K q) (e : Ent K) (h1 : e.r < p)
    (h2 : e.c < q) : addEntT alpha x y e
      = some (Function.update y ⟨e.c, h2⟩ (y ⟨e.c, h2⟩ + alpha * x ⟨e.r, h1⟩ * e.v)) := by
  rw [addEntT, rd_in x h1, Option.bind_some, bump_in y h2]

theorem timesVec_loop (es : List (Ent K)) (alpha : K) (x : RVec K q) (h : InRange p q es)
    (y : RVec K p) :
    es.foldlM (addEnt alpha x) y
      = some fun i => y i + alpha * ∑ j : Fin q, entry es i j * x j := by
  induction es generalizing y with
  | nil => simp
  | cons e es ih =>
    obtain ⟨⟨h1, h2⟩, h3⟩ := inRange_cons h
    rw [List.foldlM_cons, addEnt_in alpha x y e h1 h2, Option.bind_eq_bind, Option.bind_some, ih h3]
    congr 1
    funext i
    simp only [entry_cons, add_mul, Finset.sum_add_distrib, sum_single x h2]
    by_cases hi : e.r = i
    · have : i = ⟨e.r, h1⟩ := Fin.ext hi.symm
      subst this
      simp
      ring
    · have : i ≠ ⟨e.r, h1⟩ := fun k => hi (by rw [k])
      rw [Function.update_of_ne this, if_neg hi, zero_add]

theorem timesVec_abort (es : List (Ent K)) (alpha : K) (x : RVec K q) (h : ¬ InRange p q es)
    (y : RVec K p) :
    es.foldlM (addEnt alpha x) y = none := by
  induction es generalizing y with
  | nil => exact absurd (fun e he => absurd he List.not_mem_nil) h
  | cons e es ih =>
    by_cases h1 : e.r < p ∧ e.c < q
    · have h3 : ¬ InRange p q es := by
        intro hh; apply h; intro e' he
        rcases List.mem_cons.1 he with rfl | he
        · exact h1
        · exact hh e' he
      rw [List.foldlM_cons, addEnt_in alpha x y e h1.1 h1.2, Option.bind_eq_bind, Option.bind_some]
      exact ih h3 _
    · by_cases h2 : e.c < q
      · have : ¬ e.r < p := fun a => h1 ⟨a, h2⟩
        simp [List.foldlM_cons, addEnt, rd, h2, bump, this]
      · simp [List.foldlM_cons, addEnt, rd, h2]

/-- **C27, product.** The product is that of the dense matrix, and is computed exactly when all
triplets are in range. -/
theorem C27_timesVec (es : List (Ent K)) (beta alpha : K) (y : RVec K p) (x : RVec K q) :
    (InRange p q es → timesVec es beta y alpha x
      = some fun i => beta * y i + alpha * ∑ j : Fin q, entry es i j * x j) ∧
    (¬ InRange p q es → timesVec es beta y alpha x = none) := by
  refine ⟨fun h => ?_, fun h => timesVec_abort es alpha x h _⟩
  unfold timesVec
  rw [timesVec_loop es alpha x h]
  congr 1
  funext i
  ring

/-- Triplets with rows and columns exchanged. -/
def flip (es : List (Ent K)) : List (Ent K) := es.map fun e => ⟨e.c, e.r, e.v⟩

theorem entry_flip (es : List (Ent K)) (i j : ℕ) : entry (flip es) i j = entry es j i := by
  induction es with
  | nil => rfl
  | cons e es ih =>
    change entry (⟨e.c, e.r, e.v⟩ :: flip es) i j = _
    rw [entry_cons, ih, entry_cons]
    congr 1
    simp only [and_comm]

theorem transTimesVec_eq (es : List (Ent K)) (beta alpha : K) (y : RVec K q) (x : RVec K p) :
    transTimesVec es beta y alpha x = timesVec (flip es) beta y alpha x := by
  unfold transTimesVec timesVec flip
  rw [List.foldlM_map]
  rfl

/-- **C27, transposed product.** -/
theorem C27_transTimesVec (es : List (Ent K)) (beta alpha : K) (y : RVec K q) (x : RVec K p) :
    (InRange p q es → transTimesVec es beta y alpha x
      = some fun j => beta * y j + alpha * ∑ i : Fin p, entry es i j * x i) ∧
    (¬ InRange p q es → transTimesVec es beta y alpha x = none) := by
  have hr : InRange p q es ↔ InRange q p (flip es) := by
    unfold InRange flip
    simp only [List.mem_map, forall_exists_index, and_imp, forall_apply_eq_imp_iff₂]
    exact ⟨fun h e he => ⟨(h e he).2, (h e he).1⟩, fun h e he => ⟨(h e he).2, (h e he).1⟩⟩
  rw [transTimesVec_eq, hr]
  have := C27_timesVec (flip es) beta alpha y x
  simp only [entry_flip] at this
  exact this

/-- **C27, symmetric product.** -/
theorem C27_symTimesVec (es : List (Ent K)) (beta alpha : K) (y x : RVec K p)
    (h : InRange p p es) :
    symTimesVec es beta y alpha x
      = some fun i => beta * y i + alpha * ∑ j : Fin p, symEntry es i j * x j := by
  have loop : ∀ (es : List (Ent K)) (y : RVec K p), InRange p p es →
      es.foldlM (addEntSym alpha x) y
      = some fun i => y i + alpha * ∑ j : Fin p, symEntry es i j * x j := by
    intro es
    induction es with
    | nil => intro y _; simp
    | cons e es ih =>
      intro y h
      obtain ⟨⟨h1, h2⟩, h3⟩ := inRange_cons h
      have key : ∀ i : Fin p, ∑ j : Fin p, symEntry (e :: es) i j * x j
          = (if e.r = i then e.v * x ⟨e.c, h2⟩ else 0) +
            (if e.r ≠ e.c ∧ e.c = i then e.v * x ⟨e.r, h1⟩ else 0) +
            ∑ j : Fin p, symEntry es i j * x j := by
        intro i
        simp only [symEntry_cons, add_mul, Finset.sum_add_distrib, ← and_assoc, sum_single x h2,
          sum_single x h1]
      by_cases hd : e.r = e.c
      · rw [List.foldlM_cons, addEntSym, addEnt_in alpha x y e h1 h2, Option.bind_eq_bind,
          Option.bind_some, if_neg (not_not.2 hd), Option.bind_some, ih _ h3]
        congr 1
        funext i
        rw [key i]
        simp only [ne_eq, hd, not_true_eq_false, false_and, if_false, add_zero]
        by_cases hi : e.c = i
        · have : i = ⟨e.c, h2⟩ := Fin.ext hi.symm
          subst this
          simp; ring
        · have : i ≠ ⟨e.c, h2⟩ := fun k => hi (by rw [k])
          rw [Function.update_of_ne this, if_neg hi]; ring
      · rw [List.foldlM_cons, addEntSym, addEnt_in alpha x y e h1 h2, Option.bind_eq_bind,
          Option.bind_some, if_pos hd, addEntT_in alpha x _ e h1 h2, Option.bind_some, ih _ h3]
        congr 1
        funext i
        rw [key i]
        simp only [ne_eq, hd, not_false_eq_true, true_and]
        by_cases hi : e.c = i
        · have hi' : i = ⟨e.c, h2⟩ := Fin.ext hi.symm
          have hr : e.r ≠ i := fun k => hd (k.trans hi.symm)
          have hr' : i ≠ ⟨e.r, h1⟩ := fun k => hr (by rw [k])
          rw [if_pos hi, if_neg hr]
          subst hi'
          rw [Function.update_self, Function.update_of_ne hr']
          ring
        · have hi' : i ≠ ⟨e.c, h2⟩ := fun k => hi (by rw [k])
          rw [Function.update_of_ne hi', if_neg hi]
          by_cases hr : e.r = i
          · have hr' : i = ⟨e.r, h1⟩ := Fin.ext hr.symm
            subst hr'
            simp; ring
          · have hr' : i ≠ ⟨e.r, h1⟩ := fun k => hr (by rw [k])
            rw [Function.update_of_ne hr', if_neg hr]; ring
  unfold symTimesVec
  rw [loop es _ h]
  congr 1
  funext i
  ring

/-! ## Concrete cases -/

example : timesVec (p := 2) (q := 2) [⟨0, 1, (3 : ℚ)⟩, ⟨0, 1, 4⟩, ⟨1, 0, 5⟩] 2 ![1, 1] 1 ![1, 10]
    = some fun i => 2 * ![1, 1] i + 1 * ∑ j : Fin 2,
      entry [⟨0, 1, (3 : ℚ)⟩, ⟨0, 1, 4⟩, ⟨1, 0, 5⟩] i j * ![1, 10] j := by
  refine (C27_timesVec _ _ _ _ _).1 ?_
  intro e he
  simp only [List.mem_cons, List.not_mem_nil, or_false] at he
  rcases he with rfl | rfl | rfl <;> simp

example : (timesVec (p := 2) (q := 2) [⟨0, 1, (3 : ℚ)⟩, ⟨0, 1, 4⟩, ⟨1, 0, 5⟩] 2 ![1, 1] 1 ![1, 10]).map
    (fun y => (y 0, y 1)) = some (72, 7) := by decide +kernel
example : (transTimesVec (p := 2) (q := 2) [⟨0, 1, (3 : ℚ)⟩, ⟨0, 1, 4⟩, ⟨1, 0, 5⟩] 2 ![1, 1] 1
    ![1, 10]).map (fun y => (y 0, y 1)) = some (52, 9) := by decide +kernel
example : (symTimesVec (p := 2) [⟨0, 0, (3 : ℚ)⟩, ⟨0, 1, 4⟩] 0 ![7, 7] 1 ![1, 10]).map
    (fun y => (y 0, y 1)) = some (43, 4) := by decide +kernel
/-- An entry outside the matrix fails the assertion. -/
example : (timesVec (p := 2) (q := 2) [⟨0, 2, (3 : ℚ)⟩] 2 ![1, 1] 1 ![1, 10]).isNone = true := by
  decide +kernel

end Hiop.Sparse
