import Verif.Mpi.Model
import Verif.Vec.Lemmas
import Verif.Barrier.Props
import Verif.QN.Solve
import Mathlib.Algebra.BigOperators.Intervals
import Mathlib.Algebra.BigOperators.Fin
import Mathlib.Algebra.BigOperators.Pi

/-!
# Lemmas about distributions and reductions
-/

namespace Hiop.Mpi

open Hiop.Vec Hiop.Iterate Hiop.Kkt

set_option linter.unusedSectionVars false

variable {N P mc m : ℕ} {p : Part N P}

/-! ## Distributions -/

theorem Part.exists_idx (p : Part N P) (j : Fin N) : ∃ (r : Fin P) (i : Fin (p.len r)), p.idx r i = j := by
  classical
  have hj : (j : ℕ) < p.off P := by rw [p.last]; exact j.isLt
  have hP : ∃ k, (j : ℕ) < p.off k := ⟨P, hj⟩
  let k := Nat.find hP
  have hk : (j : ℕ) < p.off k := Nat.find_spec hP
  have hk0 : k ≠ 0 := by
    intro h0
    rw [h0, p.zero] at hk
    omega
  have hkP : k ≤ P := Nat.find_min' hP hj
  have hpre : ¬ (j : ℕ) < p.off (k - 1) := Nat.find_min hP (by omega)
  have e : k - 1 + 1 = k := by omega
  refine ⟨⟨k - 1, by omega⟩, ⟨j - p.off (k - 1), ?_⟩, ?_⟩
  · change (j : ℕ) - p.off (k - 1) < p.off (k - 1 + 1) - p.off (k - 1)
    rw [e]; omega
  · apply Fin.ext
    simp only [Part.idx]
    omega

theorem sum_offsets {A : Type*} [AddCommMonoid A] (off : ℕ → ℕ) (h0 : off 0 = 0) (hm : Monotone off)
    (g : ℕ → A) (k : ℕ) :
    ∑ j ∈ Finset.range (off k), g j
      = ∑ r ∈ Finset.range k, ∑ i ∈ Finset.range (off (r + 1) - off r), g (off r + i) := by
  induction k with
  | zero => simp [h0]
  | succ k ih =>
    rw [Finset.sum_range_succ, ← ih]
    have : off (k + 1) = off k + (off (k + 1) - off k) := by
      have := hm (Nat.le_succ k); simp only [Nat.succ_eq_add_one] at this; omega
    conv_lhs => rw [this, Finset.sum_range_add]

theorem sum_scatter {A : Type*} [AddCommMonoid A] (p : Part N P) (f : Fin N → A) :
    ∑ r : Fin P, ∑ i : Fin (p.len r), f (p.idx r i) = ∑ j, f j := by
  classical
  let g : ℕ → A := fun j => if h : j < N then f ⟨j, h⟩ else 0
  have h1 : ∑ j, f j = ∑ j ∈ Finset.range (p.off P), g j := by
    rw [p.last, ← Fin.sum_univ_eq_sum_range]
    exact Finset.sum_congr rfl fun j _ => by simp [g]
  rw [h1, sum_offsets p.off p.zero p.mono g P, ← Fin.sum_univ_eq_sum_range
    (fun r => ∑ i ∈ Finset.range (p.off (r + 1) - p.off r), g (p.off r + i))]
  refine Finset.sum_congr rfl fun r _ => ?_
  rw [← Fin.sum_univ_eq_sum_range (fun i => g (p.off r + i))]
  refine Finset.sum_congr rfl fun i _ => ?_
  have : p.off r + (i : ℕ) < N := (p.idx r i).isLt
  simp only [g, this, dif_pos]
  rfl

/-! ## Reductions -/

section red

variable {ι A B : Type*}

theorem red_exists (op : A → A → A) (v : ι → A) (l : List ι) (hl : l ≠ []) : ∃ y, Red op v l y := by
  induction l with
  | nil => exact absurd rfl hl
  | cons a l ih =>
    by_cases h : l = []
    · subst h; exact ⟨_, .one a⟩
    · obtain ⟨y, hy⟩ := ih h
      exact ⟨_, .two (.one a) hy (List.Perm.refl _)⟩

theorem red_map {op : A → A → A} {op' : B → B → B} (f : A → B) (hf : ∀ a b, f (op a b) = op' (f a) (f b))
    {v : ι → A} {l : List ι} {y : A} (h : Red op v l y) : Red op' (fun r => f (v r)) l (f y) := by
  induction h with
  | one r => exact .one r
  | two _ _ hl iha ihb => rw [hf]; exact .two iha ihb hl

theorem red_sum [AddCommMonoid A] {v : ι → A} {l : List ι} {y : A} (h : Red (· + ·) v l y) :
    y = (l.map v).sum := by
  induction h with
  | one r => simp
  | two _ _ hl iha ihb => rw [(hl.map v).sum_eq, List.map_append, List.sum_append, ← iha, ← ihb]

theorem red_max [LinearOrder A] {v : ι → A} {l : List ι} {y : A} (h : Red max v l y) :
    (∀ r ∈ l, v r ≤ y) ∧ ∃ r ∈ l, v r = y := by
  induction h with
  | one r => simp
  | @two l1 l2 l a b _ _ hl iha ihb =>
    refine ⟨fun r hr => ?_, ?_⟩
    · rcases List.mem_append.1 (hl.mem_iff.1 hr) with h | h
      · exact (iha.1 r h).trans (le_max_left _ _)
      · exact (ihb.1 r h).trans (le_max_right _ _)
    · rcases max_choice a b with h | h
      · obtain ⟨r, hr, e⟩ := iha.2
        exact ⟨r, hl.mem_iff.2 (List.mem_append.2 (Or.inl hr)), by rw [e, h]⟩
      · obtain ⟨r, hr, e⟩ := ihb.2
        exact ⟨r, hl.mem_iff.2 (List.mem_append.2 (Or.inr hr)), by rw [e, h]⟩

theorem red_min [LinearOrder A] {v : ι → A} {l : List ι} {y : A} (h : Red min v l y) :
    (∀ r ∈ l, y ≤ v r) ∧ ∃ r ∈ l, v r = y := by
  induction h with
  | one r => simp
  | @two l1 l2 l a b _ _ hl iha ihb =>
    refine ⟨fun r hr => ?_, ?_⟩
    · rcases List.mem_append.1 (hl.mem_iff.1 hr) with h | h
      · exact (min_le_left _ _).trans (iha.1 r h)
      · exact (min_le_right _ _).trans (ihb.1 r h)
    · rcases min_choice a b with h | h
      · obtain ⟨r, hr, e⟩ := iha.2
        exact ⟨r, hl.mem_iff.2 (List.mem_append.2 (Or.inl hr)), by rw [e, h]⟩
      · obtain ⟨r, hr, e⟩ := ihb.2
        exact ⟨r, hl.mem_iff.2 (List.mem_append.2 (Or.inr hr)), by rw [e, h]⟩

theorem red_land {v : ι → ℤ} {l : List ι} {y : ℤ} (h : Red land v l y) :
    y ≠ 0 ↔ ∀ r ∈ l, v r ≠ 0 := by
  induction h with
  | one r => simp
  | @two l1 l2 l a b _ _ hl iha ihb =>
    have : (∀ r ∈ l, v r ≠ 0) ↔ a ≠ 0 ∧ b ≠ 0 := by
      rw [iha, ihb]
      constructor
      · intro h
        exact ⟨fun r hr => h r (hl.mem_iff.2 (List.mem_append.2 (Or.inl hr))),
          fun r hr => h r (hl.mem_iff.2 (List.mem_append.2 (Or.inr hr)))⟩
      · rintro ⟨h1, h2⟩ r hr
        rcases List.mem_append.1 (hl.mem_iff.1 hr) with h | h
        · exact h1 r h
        · exact h2 r h
    rw [this]
    unfold land
    split <;> simp_all

end red

/-- A reduction whose possible values are all equal has exactly that outcome on every rank. -/
theorem allreduce_iff {A : Type*} {op : A → A → A} {v : Fin P → A} (c : A)
    (h : ∀ y, Red op v (List.finRange P) y → y = c) (out : Fin P → A) :
    Allreduce op v out ↔ ∀ r, out r = c := by
  constructor
  · exact fun ho r => h _ (ho r)
  · intro ho r
    have hne : List.finRange P ≠ [] := by
      intro e
      have := List.mem_finRange r
      rw [e] at this
      simp at this
    obtain ⟨y, hy⟩ := red_exists op v _ hne
    rw [ho r, ← h y hy]
    exact hy

theorem allreduce_sum {A : Type*} [AddCommMonoid A] (v : Fin P → A) (out : Fin P → A) :
    Allreduce (· + ·) v out ↔ ∀ r, out r = ∑ s, v s := by
  apply allreduce_iff
  intro y hy
  rw [red_sum hy, ← List.ofFn_eq_map, List.sum_ofFn]

theorem allreduce_max {A : Type*} [LinearOrder A] (v : Fin P → A) (c : A) (hle : ∀ s, v s ≤ c)
    (hat : ∀ _ : Fin P, ∃ s, c ≤ v s) (out : Fin P → A) :
    Allreduce max v out ↔ ∀ r, out r = c := by
  apply allreduce_iff
  intro y hy
  obtain ⟨h1, r, -, h2⟩ := red_max hy
  obtain ⟨s, hs⟩ := hat r
  exact le_antisymm (h2 ▸ hle r) (hs.trans (h1 s (List.mem_finRange s)))

theorem allreduce_min {A : Type*} [LinearOrder A] (v : Fin P → A) (c : A) (hle : ∀ s, c ≤ v s)
    (hat : ∀ _ : Fin P, ∃ s, v s ≤ c) (out : Fin P → A) :
    Allreduce min v out ↔ ∀ r, out r = c := by
  apply allreduce_iff
  intro y hy
  obtain ⟨h1, r, -, h2⟩ := red_min hy
  obtain ⟨s, hs⟩ := hat r
  exact le_antisymm ((h1 s (List.mem_finRange s)).trans hs) (h2 ▸ hle r)

theorem flag_ne (b : Bool) : flag b ≠ 0 ↔ b = true := by cases b <;> simp [flag]

/-- A conjunction of flags reduced by `MPI_MIN`. -/
theorem flag_min (b : Fin P → Bool) (c : Bool) (hc : c = true ↔ ∀ s, b s = true) (out : Fin P → Bool) :
    (∃ g : Fin P → ℤ, Allreduce min (fun r => flag (b r)) g ∧ ∀ r, out r = decide (g r ≠ 0))
      ↔ ∀ r, out r = c := by
  have key : ∀ g : Fin P → ℤ, Allreduce min (fun r => flag (b r)) g ↔ ∀ r, g r = flag c := by
    intro g
    apply allreduce_min
    · intro s
      by_cases h : c = true
      · rw [h, (hc.1 h) s]
      · have : c = false := by simpa using h
        rw [this]; cases b s <;> simp [flag]
    · intro r
      by_cases h : c = true
      · exact ⟨r, by rw [h]; cases b r <;> simp [flag]⟩
      · have h' : ¬ ∀ s, b s = true := fun h' => h (hc.2 h')
        push Not at h'
        obtain ⟨s, hs⟩ := h'
        refine ⟨s, ?_⟩
        have : b s = false := by simpa using hs
        rw [this]; cases c <;> simp [flag]
  constructor
  · rintro ⟨g, hg, ho⟩ r
    rw [ho r, (key g).1 hg r]
    cases c <;> simp [flag]
  · intro h
    refine ⟨fun _ => flag c, (key _).2 fun _ => rfl, fun r => ?_⟩
    rw [h r]
    cases c <;> simp [flag]

/-- A conjunction of flags reduced by `MPI_LAND`. -/
theorem flag_land (b : Fin P → Bool) (c : Bool) (hc : c = true ↔ ∀ s, b s = true) (out : Fin P → Bool) :
    (∃ g : Fin P → ℤ, Allreduce land (fun r => flag (b r)) g ∧ ∀ r, out r = decide (g r ≠ 0))
      ↔ ∀ r, out r = c := by
  have key : ∀ y, Red land (fun r => flag (b r)) (List.finRange P) y → (decide (y ≠ 0)) = c := by
    intro y hy
    have := red_land hy
    simp only [flag_ne, List.mem_finRange, forall_true_left] at this
    rw [← hc] at this
    by_cases h : c = true
    · rw [h]; simpa using this.2 h
    · have h2 : c = false := by simpa using h
      have : y = 0 := by
        by_contra h3
        exact h (this.1 h3)
      rw [h2, this]; simp
  constructor
  · rintro ⟨g, hg, ho⟩ r
    rw [ho r]; exact key _ (hg r)
  · intro h
    by_cases hP : List.finRange P = []
    · have : ∀ r : Fin P, False := fun r => by
        have := List.mem_finRange r; rw [hP] at this; simp at this
      exact ⟨fun _ => 0, fun r => (this r).elim, fun r => (this r).elim⟩
    · obtain ⟨y, hy⟩ := red_exists land (fun r => flag (b r)) _ hP
      exact ⟨fun _ => y, fun _ => hy, fun r => by rw [h r, key y hy]⟩

end Hiop.Mpi
