import Verif.DenseMat.Model
import Mathlib.Tactic.Ring
import Mathlib.Tactic.Linarith
import Mathlib.Algebra.BigOperators.Ring.Finset
import Mathlib.Algebra.BigOperators.Intervals

/-!
# C58: dense row-major matrices — specification and lemmas
-/

set_option linter.unusedSectionVars false

namespace Hiop.DenseMat

open Finset

variable {K : Type*} [Field K] [LinearOrder K] [IsStrictOrderedRing K]

/-! ## Specification -/

/-- Entry `(i, j)` of the stored matrix. -/
def DMat.at (A : DMat K) (i j : ℕ) : K := A.data (i * A.n + j)

/-- The storage was set up by the constructor: room for the rows, and a null array only when no room
was asked for. -/
def DMat.Ok (A : DMat K) : Prop := A.m ≤ A.cap ∧ (A.null = true ↔ A.cap = 0)

/-- `A` is a properly allocated matrix object holding the `m × n` matrix `f`. -/
structure Is (A : DMat K) (m n : ℕ) (f : ℕ → ℕ → K) : Prop where
  ok : A.Ok
  hm : A.m = m
  hn : A.n = n
  val : ∀ i < m, ∀ j < n, A.at i j = f i j

/-! ## Positions -/

theorem pos_lt {n i i' j' k : ℕ} (hj : j' < n) (hk : k ≤ n) :
    i' * n + j' < i * n + k ↔ i' < i ∨ (i' = i ∧ j' < k) := by
  rcases lt_trichotomy i' i with h | h | h
  · have := Nat.mul_le_mul_right n (Nat.succ_le_of_lt h)
    rw [Nat.succ_mul] at this
    constructor
    · intro _; exact Or.inl h
    · intro _; omega
  · subst h
    constructor
    · intro h; right; omega
    · rintro (h | ⟨_, h⟩) <;> omega
  · have := Nat.mul_le_mul_right n (Nat.succ_le_of_lt h)
    rw [Nat.succ_mul] at this
    constructor
    · intro _; omega
    · rintro (h | ⟨_, h⟩) <;> omega

theorem pos_le {n i i' j' k : ℕ} (hj : j' < n) (hk : k ≤ n) :
    i * n + k ≤ i' * n + j' ↔ i < i' ∨ (i' = i ∧ k ≤ j') := by
  have := pos_lt (i := i) (i' := i') hj hk
  constructor
  · intro h
    have : ¬ (i' < i ∨ (i' = i ∧ j' < k)) := fun h' => by have := this.2 h'; omega
    omega
  · intro h
    by_contra h'
    have := this.1 (by omega)
    omega

theorem pos_inj {n i i' j j' : ℕ} (hj : j < n) (hj' : j' < n) :
    i * n + j = i' * n + j' ↔ i = i' ∧ j = j' := by
  have h1 := pos_lt (i := i') (i' := i) (j' := j) (k := j') hj hj'.le
  have h2 := pos_lt (i := i) (i' := i') (j' := j') (k := j) hj' hj.le
  constructor
  · intro h
    have a : ¬ (i < i' ∨ (i = i' ∧ j < j')) := fun h' => by have := h1.2 h'; omega
    have b : ¬ (i' < i ∨ (i' = i ∧ j' < j)) := fun h' => by have := h2.2 h'; omega
    omega
  · rintro ⟨rfl, rfl⟩; rfl

theorem pos_lt_size {n i j m : ℕ} (hi : i < m) (hj : j < n) : i * n + j < m * n := by
  have := Nat.mul_le_mul_right n (Nat.succ_le_of_lt hi)
  rw [Nat.succ_mul] at this
  omega

theorem pos_lt_cap {n i j m c : ℕ} (hi : i < m) (hj : j < n) (hm : m ≤ c) : i * n + j < c * n :=
  pos_lt_size (lt_of_lt_of_le hi hm) hj

theorem pos_mod {n i j : ℕ} (hj : j < n) : (i * n + j) % n = j := by
  rw [Nat.mul_comm, Nat.mul_add_mod, Nat.mod_eq_of_lt hj]

theorem pos_div {n i j : ℕ} (hj : j < n) : (i * n + j) / n = i := by
  rw [Nat.mul_comm, Nat.mul_add_div (by omega), Nat.div_eq_of_lt hj, Nat.add_zero]

/-! ## Well-formed storage -/

theorem arr_size {A : DMat K} (h : A.Ok) : A.arr.size = A.cap * A.n := by
  unfold DMat.arr
  by_cases hn : A.null = true
  · simp [hn, h.2.1 hn]
  · simp [hn]

theorem row_eq {A : DMat K} (h : A.Ok) {i : ℕ} (hi : i < A.m) : A.row i = some (i * A.n) := by
  have := h.1
  unfold DMat.row
  rw [if_pos (by omega)]

theorem Is.size {A : DMat K} {m n : ℕ} {f : ℕ → ℕ → K} (h : Is A m n f) :
    A.arr.size = A.cap * n := by rw [arr_size h.ok, h.hn]

theorem Is.cap_le {A : DMat K} {m n : ℕ} {f : ℕ → ℕ → K} (h : Is A m n f) : m ≤ A.cap :=
  h.hm ▸ h.ok.1

theorem Is.row {A : DMat K} {m n : ℕ} {f : ℕ → ℕ → K} (h : Is A m n f) {i : ℕ} (hi : i < m) :
    A.row i = some (i * n) := by
  rw [row_eq h.ok (by rw [h.hm]; exact hi), h.hn]

theorem Is.get {A : DMat K} {m n : ℕ} {f : ℕ → ℕ → K} (h : Is A m n f) {i j : ℕ} (hi : i < m)
    (hj : j < n) : A.arr.get (i * n + j) = f i j := by
  have := h.val i hi j hj
  rw [DMat.at, h.hn] at this
  exact this

theorem Is.mn_le {A : DMat K} {m n : ℕ} {f : ℕ → ℕ → K} (h : Is A m n f) :
    m * n ≤ A.arr.size := by
  rw [h.size]; exact Nat.mul_le_mul_right _ h.cap_le

/-- A result with new contents. -/
theorem is_put {A : DMat K} {m n : ℕ} {f g : ℕ → ℕ → K} (h : Is A m n f) (a : Arr K)
    (hv : ∀ i < m, ∀ j < n, a.get (i * n + j) = g i j) : Is (A.put a) m n g :=
  ⟨h.ok, h.hm, h.hn, fun i hi j hj => by
    have : (A.put a).at i j = a.get (i * A.n + j) := rfl
    rw [this, h.hn, hv i hi j hj]⟩

theorem put_cap (A : DMat K) (a : Arr K) : (A.put a).cap = A.cap := rfl

/-! ## Loops -/

theorem loop_accum {body : ℕ → Arr K → Option (Arr K)} {k : ℕ} {s : Arr K} {g : ℕ → ℕ → K}
    (h : ∀ i < k, ∀ t : Arr K, t.size = s.size → ∃ t', body i t = some t' ∧ t'.size = s.size ∧
      ∀ q, t'.get q = t.get q + g i q) :
    ∃ t, loop body k s = some t ∧ t.size = s.size ∧
      ∀ q, t.get q = s.get q + ∑ i ∈ range k, g i q := by
  induction k with
  | zero => exact ⟨s, rfl, rfl, fun q => by simp⟩
  | succ k ih =>
    obtain ⟨t, h1, h2, h3⟩ := ih fun i hi => h i (by omega)
    obtain ⟨t', h4, h5, h6⟩ := h k (by omega) t h2
    refine ⟨t', ?_, h5, fun q => ?_⟩
    · simp only [loop, h1, Option.bind_some, h4]
    · rw [h6, h3, sum_range_succ, add_assoc]

theorem loop_over {body : ℕ → Arr K → Option (Arr K)} {k : ℕ} {s : Arr K} (P : ℕ → ℕ → Prop)
    (w : ℕ → ℕ → K) (hd : ∀ i < k, ∀ j < k, ∀ q, P i q → P j q → i = j)
    (h : ∀ i < k, ∀ t : Arr K, t.size = s.size → (∀ q, (∀ i' < i, ¬ P i' q) → t.get q = s.get q) →
      ∃ t', body i t = some t' ∧ t'.size = s.size ∧ (∀ q, P i q → t'.get q = w i q) ∧
        ∀ q, ¬ P i q → t'.get q = t.get q) :
    ∃ t, loop body k s = some t ∧ t.size = s.size ∧ (∀ i < k, ∀ q, P i q → t.get q = w i q) ∧
      ∀ q, (∀ i < k, ¬ P i q) → t.get q = s.get q := by
  induction k with
  | zero => exact ⟨s, rfl, rfl, fun i hi => by omega, fun q _ => rfl⟩
  | succ k ih =>
    obtain ⟨t, h1, h2, h3, h4⟩ := ih (fun i hi j hj => hd i (by omega) j (by omega))
      fun i hi => h i (by omega)
    obtain ⟨t', a1, a2, a3, a4⟩ := h k (by omega) t h2 h4
    refine ⟨t', ?_, a2, ?_, ?_⟩
    · simp only [loop, h1, Option.bind_some, a1]
    · intro i hi q hq
      rcases Nat.lt_succ_iff_lt_or_eq.1 hi with hi' | rfl
      · rw [a4 q fun hk => by have := hd i hi k (by omega) q hq hk; omega]
        exact h3 i hi' q hq
      · exact a3 q hq
    · intro q hq
      rw [a4 q (hq k (by omega))]
      exact h4 q fun i hi => hq i (by omega)

theorem memcpy_some {dst src : Arr K} {d0 so cnt : ℕ} (h1 : d0 + cnt ≤ dst.size)
    (h2 : so + cnt ≤ src.size) :
    memcpy dst d0 src so cnt = some ⟨dst.size, fun k => if d0 ≤ k ∧ k < d0 + cnt then
      src.get (so + (k - d0)) else dst.get k⟩ := by
  unfold memcpy; rw [if_pos ⟨h1, h2⟩]

theorem set_some {a : Arr K} {k : ℕ} (h : k < a.size) (v : K) :
    a.set k v = some ⟨a.size, fun q => if q = k then v else a.get q⟩ := by
  unfold Arr.set; rw [if_pos h]

theorem add_some {a : Arr K} {k : ℕ} (h : k < a.size) (v : K) :
    ∃ a', a.add k v = some a' ∧ a'.size = a.size ∧
      ∀ q, a'.get q = a.get q + if q = k then v else 0 := by
  refine ⟨_, set_some h _, rfl, fun q => ?_⟩
  by_cases hq : q = k
  · subst hq; simp
  · simp [hq]

theorem read_some {a : Arr K} {k : ℕ} (h : k < a.size) : a.read k = some (a.get k) := by
  unfold Arr.read; rw [if_pos h]

end Hiop.DenseMat
