import Verif.Fgmres.Model
import Mathlib.Tactic.Ring
import Mathlib.Tactic.Linarith
import Mathlib.Tactic.Module
import Mathlib.Algebra.BigOperators.Intervals

/-!
# What the four orthogonalization schemes compute
-/

namespace Hiop.Fgmres

variable {n : ℕ}

@[simp] theorem set1_same {α : Type*} (f : ℕ → α) (i : ℕ) (v : α) : set1 f i v i = v := by simp [set1]
theorem set1_ne {α : Type*} (f : ℕ → α) {i j : ℕ} (v : α) (h : j ≠ i) : set1 f i v j = f j := by simp [set1, h]

/-- The first `p` vectors are orthonormal. -/
def ON (V : ℕ → Vec n) (p : ℕ) : Prop := ∀ j < p, ∀ k < p, V j ⬝ᵥ V k = if j = k then 1 else 0

theorem ON.mono {V : ℕ → Vec n} {p q : ℕ} (h : ON V p) (hq : q ≤ p) : ON V q :=
  fun j hj k hk => h j (by omega) k (by omega)

theorem dot_sum {V : ℕ → Vec n} {p : ℕ} (h : ON V p) (g : ℕ → ℝ) {q j : ℕ} (hq : q ≤ p) (hj : j < p) :
    V j ⬝ᵥ (∑ k ∈ Finset.range q, g k • V k) = if j < q then g j else 0 := by
  induction q with
  | zero => simp
  | succ q ih =>
    rw [Finset.sum_range_succ, dotProduct_add, ih (by omega), dotProduct_smul, h j hj q (by omega)]
    by_cases e : j = q
    · subst e; simp
    · by_cases l : j < q
      · have : j < q + 1 := by omega
        simp [e, l, this]
      · have : ¬ j < q + 1 := by omega
        simp [e, l, this]

theorem self_nonneg (v : Vec n) : 0 ≤ v ⬝ᵥ v := by
  simp only [dotProduct]; exact Finset.sum_nonneg fun _ _ => mul_self_nonneg _

theorem self_zero {v : Vec n} (h : v ⬝ᵥ v = 0) : v = 0 := by
  funext i
  simp only [dotProduct] at h
  exact mul_self_eq_zero.1 ((Finset.sum_eq_zero_iff_of_nonneg fun _ _ => mul_self_nonneg _).1 h i (Finset.mem_univ i))

/-- What an orthogonalization of vector `i+1` against the vectors `0..i` leaves unchanged. -/
structure Frame (i : ℕ) (m m' : Mem n) : Prop where
  V : ∀ j, j ≠ i + 1 → m'.V j = m.V j
  H : ∀ k, k ≠ i → m'.H k = m.H k
  Z : m'.Z = m.Z
  c : m'.c = m.c
  s : m'.s = m.s
  rs : m'.rs = m.rs

/-- The strictly lower part of rows `0..p-1` of `L` is zero. -/
def LZ (L : ℕ → ℕ → ℝ) (p : ℕ) : Prop := ∀ k < p, ∀ j < k, L k j = 0

/-! ### mgs -/

theorem mgs_frame_aux (i : ℕ) (m : Mem n) (q : ℕ) :
    let m' := (List.range q).foldl (mgsStep i) m
    Frame i m m' ∧ m'.L = m.L := by
  induction q with
  | zero => exact ⟨⟨fun _ _ => rfl, fun _ _ => rfl, rfl, rfl, rfl, rfl⟩, rfl⟩
  | succ q ih =>
    simp only [List.range_succ, List.foldl_append, List.foldl_cons, List.foldl_nil]
    obtain ⟨⟨h1, h2, h3, h4, h5, h6⟩, h7⟩ := ih
    refine ⟨⟨fun j hj => ?_, fun k hk => ?_, h3, h4, h5, h6⟩, h7⟩
    · simp only [mgsStep]; rw [set1_ne _ _ hj]; exact h1 j hj
    · simp only [mgsStep, set2]; rw [set1_ne _ _ hk]; exact h2 k hk

theorem mgs_aux (i : ℕ) (m : Mem n) (q : ℕ) (hq : q ≤ i + 1) :
    let m' := (List.range q).foldl (mgsStep i) m
    m'.V (i + 1) = m.V (i + 1) - ∑ j ∈ Finset.range q, m'.H i j • m.V j ∧
    (ON m.V (i + 1) → ∀ j < q, m'.H i j = m.V j ⬝ᵥ m.V (i + 1)) := by
  induction q with
  | zero => simp
  | succ q ih =>
    simp only [List.range_succ, List.foldl_append, List.foldl_cons, List.foldl_nil]
    obtain ⟨f, _⟩ := mgs_frame_aux i m q
    obtain ⟨h1, h2⟩ := ih (by omega)
    generalize (List.range q).foldl (mgsStep i) m = a at f h1 h2 ⊢
    simp only [mgsStep, set2, set1_same]
    have hv : a.V q = m.V q := f.V q (by omega)
    constructor
    · rw [Finset.sum_range_succ, set1_same]
      have : ∑ j ∈ Finset.range q, set1 (a.H i) q (a.V q ⬝ᵥ a.V (i + 1)) j • m.V j =
          ∑ j ∈ Finset.range q, a.H i j • m.V j := by
        refine Finset.sum_congr rfl fun j hj => ?_
        rw [set1_ne _ _ (by have := Finset.mem_range.1 hj; omega)]
      rw [this, h1, hv]
      module
    · intro hon j hj
      by_cases e : j = q
      · subst e
        rw [set1_same, hv, h1, dotProduct_sub, dot_sum hon _ (by omega) (by omega)]
        simp
      · rw [set1_ne _ _ e]; exact h2 hon j (by omega)

/-! ### Triangular solves with a zero matrix -/

theorem tri_zero (L : ℕ → ℕ → ℝ) (r h : ℕ → ℝ) (i : ℕ) (hL : LZ L (i + 1)) (j : ℕ) :
    tri L r i h j = if j ≤ i then r j else h j := by
  have : ∀ q ≤ i + 1, ∀ j, (List.range q).foldl (triStep L r) h j = if j < q then r j else h j := by
    intro q
    induction q with
    | zero => intro _ j; simp
    | succ q ih =>
      intro hq j
      simp only [List.range_succ, List.foldl_append, List.foldl_cons, List.foldl_nil, triStep]
      have z : ∀ g : ℕ → ℝ, ∑ k ∈ Finset.range q, L q k * g k = 0 := fun g =>
        Finset.sum_eq_zero fun k hk => by rw [hL q (by omega) k (Finset.mem_range.1 hk), zero_mul]
      rw [z, sub_zero, set1_same]
      by_cases e : j = q
      · subst e; simp
      · rw [set1_ne _ _ e, set1_ne _ _ e, ih (by omega)]
        by_cases l : j < q
        · rw [if_pos l, if_pos (by omega)]
        · rw [if_neg l, if_neg (by omega)]
  rw [tri, this (i + 1) le_rfl]
  by_cases l : j ≤ i
  · rw [if_pos l, if_pos (by omega)]
  · rw [if_neg l, if_neg (by omega)]

theorem lowSynch_spec (i : ℕ) (m : Mem n) :
    Frame i m (lowSynch i m) ∧ (lowSynch i m).V = m.V ∧
    (ON m.V (i + 1) → LZ m.L i → LZ (lowSynch i m).L (i + 1) ∧
      ∀ j ≤ i, (lowSynch i m).H i j = m.V j ⬝ᵥ m.V (i + 1)) := by
  refine ⟨⟨fun _ _ => rfl, fun k hk => ?_, rfl, rfl, rfl, rfl⟩, rfl, fun hon hl => ?_⟩
  · simp only [lowSynch]; exact set1_ne _ _ hk
  · have hL : LZ (lowSynch i m).L (i + 1) := by
      intro k hk j hj
      simp only [lowSynch]
      by_cases e : k = i
      · subst e
        rw [set1_same, fill, if_pos (by omega), hon j (by omega) k (by omega), if_neg (by omega)]
      · rw [set1_ne _ _ e]; exact hl k (by omega) j hj
    refine ⟨hL, fun j hj => ?_⟩
    simp only [lowSynch, set1_same] at hL ⊢
    rw [tri_zero _ _ _ _ hL, if_pos hj, fill, if_pos hj]

/-! ### All schemes -/

/-- Every scheme changes only vector `i+1`, column `i` of `H` and its own arrays, and subtracts from the new vector the
combination of the earlier ones that it writes into `H`, whether the earlier vectors are orthonormal or not. -/
theorem orth_decomp (o : Orth) (i : ℕ) (m : Mem n) :
    Frame i m (orthogonalize o i m) ∧
    (orthogonalize o i m).V (i + 1) =
      m.V (i + 1) - ∑ j ∈ Finset.range (i + 1), (orthogonalize o i m).H i j • m.V j := by
  cases o with
  | mgs => exact ⟨(mgs_frame_aux i m (i + 1)).1, (mgs_aux i m (i + 1) le_rfl).1⟩
  | cgs2 =>
    simp only [orthogonalize, cgs2, subtract]
    refine ⟨⟨fun j hj => ?_, fun k hk => set1_ne _ _ hk, rfl, rfl, rfl, rfl⟩, ?_⟩
    · simp only; rw [set1_ne _ _ hj, set1_ne _ _ hj]
    · simp only [set1_same]
      rw [sub_sub, ← Finset.sum_add_distrib]
      congr 1
      refine Finset.sum_congr rfl fun j hj => ?_
      have hj := Finset.mem_range.1 hj
      rw [set1_ne _ _ (show j ≠ i + 1 by omega)]
      simp only [fill, if_pos (show j ≤ i by omega), set1_ne _ _ (show j ≠ i + 1 by omega)]
      module
  | twoSynch =>
    obtain ⟨⟨h1, h2, h3, h4, h5, h6⟩, hv, _⟩ := lowSynch_spec i m
    simp only [orthogonalize, twoSynch, subtract]
    refine ⟨⟨fun j hj => ?_, h2, h3, h4, h5, h6⟩, ?_⟩
    · simp only; rw [set1_ne _ _ hj, hv]
    · simp only [set1_same, hv]
  | pm =>
    obtain ⟨⟨h1, h2, h3, h4, h5, h6⟩, hv, _⟩ := lowSynch_spec i m
    simp only [orthogonalize, pm, subtract]
    refine ⟨⟨fun j hj => ?_, fun k hk => ?_, h3, h4, h5, h6⟩, ?_⟩
    · simp only; rw [set1_ne _ _ hj, hv]
    · simp only; rw [set1_ne _ _ hk, h2 k hk]
    · simp only [set1_same, hv]

/-- With orthonormal earlier vectors the coefficients are the inner products, for every scheme. -/
theorem orth_coeff (o : Orth) (i : ℕ) (m : Mem n) (hon : ON m.V (i + 1)) (hl : LZ m.L i) :
    (∀ j ≤ i, (orthogonalize o i m).H i j = m.V j ⬝ᵥ m.V (i + 1)) ∧
    ((o = .twoSynch ∨ o = .pm) → LZ (orthogonalize o i m).L (i + 1)) := by
  cases o with
  | mgs => exact ⟨fun j hj => (mgs_aux i m (i + 1) le_rfl).2 hon j (by omega), by simp⟩
  | cgs2 =>
    refine ⟨fun j hj => ?_, by simp⟩
    simp only [orthogonalize, cgs2, subtract, set1_same, fill, if_pos hj]
    rw [set1_ne _ _ (show j ≠ i + 1 by omega), dotProduct_sub, dot_sum hon _ le_rfl (by omega),
      if_pos (by omega)]
    ring
  | twoSynch =>
    obtain ⟨_, hv, h⟩ := lowSynch_spec i m
    exact ⟨(h hon hl).2, fun _ => (h hon hl).1⟩
  | pm =>
    obtain ⟨_, hv, h⟩ := lowSynch_spec i m
    obtain ⟨hL, hh⟩ := h hon hl
    refine ⟨fun j hj => ?_, fun _ => hL⟩
    simp only [orthogonalize, pm, subtract, set1_same, fill, if_pos hj]
    rw [hh j hj, tri_zero _ _ _ _ hL, if_pos hj]
    simp only [fill, if_pos hj]
    rw [Finset.sum_eq_zero, sub_zero]
    intro k hk
    obtain ⟨k1, k2⟩ := Finset.mem_Icc.1 hk
    rw [hL k (by omega) j (by omega), mul_zero]

/-- `GramSchmidt` in exact arithmetic: coefficients, remainder, and the new vector. -/
theorem gramSchmidt_spec (c : Cfg n) (i : ℕ) (m m' : Mem n) (hon : ON m.V (i + 1))
    (hl : (c.orth = .twoSynch ∨ c.orth = .pm) → LZ m.L i) (h : gramSchmidt c i m = .ok m') :
    Frame i m m' ∧ ((c.orth = .twoSynch ∨ c.orth = .pm) → LZ m'.L (i + 1)) ∧ 0 ≤ m'.H i (i + 1) ∧
    m.V (i + 1) = (∑ j ∈ Finset.range (i + 1), m'.H i j • m.V j) + m'.H i (i + 1) • m'.V (i + 1) ∧
    (m'.H i (i + 1) ≠ 0 → ON m'.V (i + 2)) ∧ (m'.H i (i + 1) = 0 → m'.V (i + 1) = 0) := by
  have hl' : (c.orth = .twoSynch ∨ c.orth = .pm) ∨ ¬ (c.orth = .twoSynch ∨ c.orth = .pm) := em _
  obtain ⟨fr, hd⟩ := orth_decomp c.orth i m
  have hcL : (∀ j ≤ i, (orthogonalize c.orth i m).H i j = m.V j ⬝ᵥ m.V (i + 1)) ∧
      ((c.orth = .twoSynch ∨ c.orth = .pm) → LZ (orthogonalize c.orth i m).L (i + 1)) := by
    rcases hl' with e | e
    · exact orth_coeff c.orth i m hon (hl e)
    · refine ⟨?_, fun h => absurd h e⟩
      have := orth_coeff c.orth i { m with L := fun _ _ => 0 } hon (fun _ _ _ _ => rfl)
      cases ho : c.orth with
      | mgs =>
        intro j hj
        exact (mgs_aux i m (i + 1) le_rfl).2 hon j (by omega)
      | cgs2 => rw [ho] at this; exact this.1
      | twoSynch => exact absurd (Or.inl ho) e
      | pm => exact absurd (Or.inr ho) e
  obtain ⟨hc, hL⟩ := hcL
  unfold gramSchmidt at h
  generalize ho : orthogonalize c.orth i m = a at h fr hd hc hL
  have haV : ∀ j ≤ i, a.V j = m.V j := fun j hj => fr.V j (by omega)
  have perp : ∀ j ≤ i, m.V j ⬝ᵥ a.V (i + 1) = 0 := by
    intro j hj
    rw [hd, dotProduct_sub, dot_sum hon _ le_rfl (by omega), if_pos (by omega), hc j hj, sub_self]
  unfold normalize at h
  simp only at h
  set t := √(a.V (i + 1) ⬝ᵥ a.V (i + 1)) with ht
  have hpos : 0 ≤ a.V (i + 1) ⬝ᵥ a.V (i + 1) := by
    simp only [dotProduct]; exact Finset.sum_nonneg fun _ _ => mul_self_nonneg _
  have htt : t * t = a.V (i + 1) ⬝ᵥ a.V (i + 1) := by rw [ht]; exact Real.mul_self_sqrt hpos
  have sumeq : ∀ g : ℕ → ℕ → ℝ, (∀ j, j ≠ i + 1 → g i j = a.H i j) →
      ∑ j ∈ Finset.range (i + 1), g i j • m.V j = ∑ j ∈ Finset.range (i + 1), a.H i j • m.V j := by
    intro g hg
    refine Finset.sum_congr rfl fun j hj => ?_
    rw [hg j (by have := Finset.mem_range.1 hj; omega)]
  have hg : ∀ j, j ≠ i + 1 → set2 a.H i (i + 1) t i j = a.H i j := by
    intro j hj; simp only [set2, set1_same]; exact set1_ne _ _ hj
  split at h
  · rename_i hne
    cases h
    have e1 : set2 a.H i (i + 1) t i (i + 1) = t := by simp [set2]
    refine ⟨⟨fun j hj => ?_, fun k hk => ?_, fr.Z, fr.c, fr.s, fr.rs⟩, hL, ?_, ?_, fun _ => ?_, fun h0 => ?_⟩
    · simp only; rw [set1_ne _ _ hj]; exact fr.V j hj
    · simp only [set2]; rw [set1_ne _ _ hk]; exact fr.H k hk
    · simp only [e1]; rw [ht]; exact Real.sqrt_nonneg _
    · simp only [e1, set1_same]
      rw [sumeq _ hg, smul_smul, mul_one_div_cancel hne, one_smul, hd]; module
    · intro j hj k hk
      simp only
      by_cases ej : j = i + 1
      · by_cases ek : k = i + 1
        · subst ej; subst ek
          simp only [set1_same, dotProduct_smul, smul_dotProduct, smul_eq_mul, ← htt, if_true]
          field_simp
        · subst ej
          rw [set1_same, set1_ne _ _ ek, haV k (by omega), smul_dotProduct, dotProduct_comm, perp k (by omega),
            if_neg (by omega), smul_zero]
      · by_cases ek : k = i + 1
        · subst ek
          rw [set1_same, set1_ne _ _ ej, haV j (by omega), dotProduct_smul, perp j (by omega), if_neg (by omega),
            smul_zero]
        · rw [set1_ne _ _ ej, set1_ne _ _ ek, haV j (by omega), haV k (by omega)]
          exact hon j (by omega) k (by omega)
    · simp only [e1] at h0; exact absurd h0 hne
  · rename_i hz
    have hz : t = 0 := not_not.1 hz
    split at h
    · cases h
    · cases h
      have e1 : set2 a.H i (i + 1) t i (i + 1) = t := by simp [set2]
      have v0 : a.V (i + 1) = 0 := by
        rw [hz, zero_mul] at htt
        exact self_zero htt.symm
      refine ⟨⟨fr.V, fun k hk => ?_, fr.Z, fr.c, fr.s, fr.rs⟩, hL, ?_, ?_, fun h0 => ?_, fun _ => v0⟩
      · simp only [set2]; rw [set1_ne _ _ hk]; exact fr.H k hk
      · simp only; rw [e1, hz]
      · simp only [e1]
        rw [sumeq _ hg, v0, smul_zero, add_zero]
        rw [v0] at hd
        exact (sub_eq_zero.1 hd.symm)
      · simp only [e1] at h0; exact absurd hz h0

/-- With assertions a zero vector never gets through. -/
theorem gramSchmidt_dbg (c : Cfg n) (i : ℕ) (m m' : Mem n) (hd : c.dbg = true) (h : gramSchmidt c i m = .ok m') :
    m'.H i (i + 1) ≠ 0 := by
  unfold gramSchmidt normalize at h
  simp only at h
  split at h
  · rename_i hne
    cases h
    simp only [set2, set1_same]
    exact hne
  · first
    | cases h
    | (rw [hd] at h; simp at h)

end Hiop.Fgmres
