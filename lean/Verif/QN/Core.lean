import Verif.Vec.Lemmas
import Mathlib.LinearAlgebra.Matrix.PosDef
import Mathlib.Analysis.Real.Sqrt
import Mathlib.Tactic.Linarith
import Mathlib.Tactic.FieldSimp
import Mathlib.Tactic.LinearCombination

/-!
# The BFGS matrix: definition, definiteness, secant equation, compact representation

Specification of the quasi-Newton part: textbook BFGS, no reference to the code. Pairs `(s, y)` are
listed from the oldest to the newest.
-/

set_option linter.unusedSectionVars false

namespace Hiop.QN

open Hiop.Vec Matrix

variable {n : ℕ}

/-- A secant pair `(s, y)`. -/
abbrev Pair (n : ℕ) := RVec ℝ n × RVec ℝ n

/-- The BFGS update `B - B s sᵀ B / sᵀ B s + y yᵀ / sᵀ y`. -/
noncomputable def bfgsUpd (B : Matrix (Fin n) (Fin n) ℝ) (p : Pair n) : Matrix (Fin n) (Fin n) ℝ :=
  B - (1 / (p.1 ⬝ᵥ B *ᵥ p.1)) • vecMulVec (B *ᵥ p.1) (B *ᵥ p.1)
    + (1 / (p.1 ⬝ᵥ p.2)) • vecMulVec p.2 p.2

/-- The BFGS matrix of a list of pairs, started from `sigma` times the identity. -/
noncomputable def bfgs (sigma : ℝ) (ps : List (Pair n)) : Matrix (Fin n) (Fin n) ℝ :=
  ps.foldl bfgsUpd (sigma • 1)

/-- Symmetric and positive definite. -/
def Spd (B : Matrix (Fin n) (Fin n) ℝ) : Prop := B.IsSymm ∧ ∀ x, x ≠ 0 → 0 < x ⬝ᵥ B *ᵥ x

/-- All pairs have positive curvature. -/
def PosPairs (ps : List (Pair n)) : Prop := ∀ p ∈ ps, 0 < p.1 ⬝ᵥ p.2

theorem bfgs_snoc (sigma : ℝ) (ps : List (Pair n)) (p : Pair n) :
    bfgs sigma (ps ++ [p]) = bfgsUpd (bfgs sigma ps) p := by
  simp [bfgs, List.foldl_append]

theorem vecMulVec_mulVec' (u v x : RVec ℝ n) : vecMulVec u v *ᵥ x = (v ⬝ᵥ x) • u := by
  funext i
  simp only [mulVec, dotProduct, vecMulVec_apply, Pi.smul_apply, smul_eq_mul, Finset.sum_mul]
  exact Finset.sum_congr rfl fun j _ => by ring

theorem bfgsUpd_mulVec (B : Matrix (Fin n) (Fin n) ℝ) (p : Pair n) (x : RVec ℝ n) :
    bfgsUpd B p *ᵥ x = B *ᵥ x - ((B *ᵥ p.1 ⬝ᵥ x) / (p.1 ⬝ᵥ B *ᵥ p.1)) • B *ᵥ p.1
      + ((p.2 ⬝ᵥ x) / (p.1 ⬝ᵥ p.2)) • p.2 := by
  rw [bfgsUpd, add_mulVec, sub_mulVec, smul_mulVec, smul_mulVec, vecMulVec_mulVec',
    vecMulVec_mulVec', smul_smul, smul_smul]
  have e1 : 1 / (p.1 ⬝ᵥ B *ᵥ p.1) * (B *ᵥ p.1 ⬝ᵥ x) = (B *ᵥ p.1 ⬝ᵥ x) / (p.1 ⬝ᵥ B *ᵥ p.1) := by
    ring
  have e2 : 1 / (p.1 ⬝ᵥ p.2) * (p.2 ⬝ᵥ x) = (p.2 ⬝ᵥ x) / (p.1 ⬝ᵥ p.2) := by ring
  rw [e1, e2]

/-- `u ⬝ B v = v ⬝ B u` for symmetric `B`. -/
theorem symm_dot {B : Matrix (Fin n) (Fin n) ℝ} (h : B.IsSymm) (u v : RVec ℝ n) :
    u ⬝ᵥ B *ᵥ v = v ⬝ᵥ B *ᵥ u := by
  rw [dotProduct_mulVec, ← mulVec_transpose, h.eq, dotProduct_comm]

theorem bfgsUpd_symm {B : Matrix (Fin n) (Fin n) ℝ} (h : B.IsSymm) (p : Pair n) :
    (bfgsUpd B p).IsSymm := by
  have hv : ∀ u : RVec ℝ n, (vecMulVec u u).IsSymm := fun u => by
    unfold IsSymm
    ext i j
    simp [vecMulVec_apply, mul_comm]
  unfold bfgsUpd
  exact (h.sub ((hv _).smul _)).add ((hv _).smul _)

/-- The BFGS update of a positive definite matrix with positive curvature is positive definite. -/
theorem bfgsUpd_spd {B : Matrix (Fin n) (Fin n) ℝ} (h : Spd B) (p : Pair n)
    (hp : 0 < p.1 ⬝ᵥ p.2) : Spd (bfgsUpd B p) := by
  refine ⟨bfgsUpd_symm h.1 p, fun x hx => ?_⟩
  obtain ⟨s, y⟩ := p
  simp only at hp
  have hs : s ≠ 0 := by
    rintro rfl; simp at hp
  have hsBs := h.2 s hs
  set t := (s ⬝ᵥ B *ᵥ x) / (s ⬝ᵥ B *ᵥ s) with ht
  have key : x ⬝ᵥ bfgsUpd B (s, y) *ᵥ x
      = (x - t • s) ⬝ᵥ B *ᵥ (x - t • s) + (y ⬝ᵥ x) ^ 2 / (s ⬝ᵥ y) := by
    rw [bfgsUpd_mulVec]
    simp only [dotProduct_add, dotProduct_sub, sub_dotProduct, dotProduct_smul, smul_dotProduct,
      mulVec_sub, mulVec_smul, smul_eq_mul]
    rw [dotProduct_comm (B *ᵥ s) x, symm_dot h.1 x s, dotProduct_comm x y, ht]
    field_simp
    ring
  rw [key]
  have h2 : 0 ≤ (y ⬝ᵥ x) ^ 2 / (s ⬝ᵥ y) := div_nonneg (sq_nonneg _) hp.le
  by_cases hz : x - t • s = 0
  · have hx' : x = t • s := sub_eq_zero.mp hz
    have ht0 : t ≠ 0 := by
      rintro h0; rw [h0, zero_smul] at hx'; exact hx hx'
    have : 0 < (y ⬝ᵥ x) ^ 2 / (s ⬝ᵥ y) := by
      refine div_pos (pow_pos_of_ne_zero ?_) hp
      rw [hx', dotProduct_smul, dotProduct_comm y s]
      exact mul_ne_zero ht0 hp.ne'
    rw [hz]; simpa using this
  · exact add_pos_of_pos_of_nonneg (h.2 _ hz) h2
where
  pow_pos_of_ne_zero {a : ℝ} (h : a ≠ 0) : 0 < a ^ 2 := by positivity

theorem spd_init {sigma : ℝ} (hs : 0 < sigma) : Spd (sigma • (1 : Matrix (Fin n) (Fin n) ℝ)) := by
  refine ⟨isSymm_one.smul _, fun x hx => ?_⟩
  rw [smul_mulVec, one_mulVec, dotProduct_smul, smul_eq_mul]
  refine mul_pos hs ?_
  have : 0 ≤ x ⬝ᵥ x := Finset.sum_nonneg fun i _ => mul_self_nonneg _
  exact lt_of_le_of_ne this fun h0 => hx (dotProduct_self_eq_zero.mp h0.symm)

/-- BFGS matrices of pairs with positive curvature are symmetric positive definite. -/
theorem bfgs_spd {sigma : ℝ} (hs : 0 < sigma) (ps : List (Pair n)) (hp : PosPairs ps) :
    Spd (bfgs sigma ps) := by
  induction ps using List.reverseRecOn with
  | nil => exact spd_init hs
  | append_singleton ps p ih =>
    rw [bfgs_snoc]
    exact bfgsUpd_spd (ih fun q hq => hp q (by simp [hq])) p (hp p (by simp))

/-- Secant equation: the newest pair satisfies `B s = y`. -/
theorem bfgs_secant {sigma : ℝ} (hs : 0 < sigma) (ps : List (Pair n)) (p : Pair n)
    (hp : PosPairs (ps ++ [p])) : bfgs sigma (ps ++ [p]) *ᵥ p.1 = p.2 := by
  have hB := bfgs_spd hs ps fun q hq => hp q (by simp [hq])
  have hc : 0 < p.1 ⬝ᵥ p.2 := hp p (by simp)
  have hne : p.1 ≠ 0 := by
    intro h; rw [h] at hc; simp at hc
  have hq := hB.2 _ hne
  rw [bfgs_snoc, bfgsUpd_mulVec, dotProduct_comm (_ *ᵥ p.1) p.1, div_self hq.ne',
    dotProduct_comm p.2 p.1, div_self hc.ne']
  simp

/-! ## Compact representation -/

/-- `s` of the `i`-th pair (zero past the end). -/
def sAt (ps : List (Pair n)) (i : ℕ) : RVec ℝ n := (ps.getD i 0).1
/-- `y` of the `i`-th pair. -/
def yAt (ps : List (Pair n)) (i : ℕ) : RVec ℝ n := (ps.getD i 0).2

theorem sAt_append_lt {ps : List (Pair n)} {p : Pair n} {i : ℕ} (h : i < ps.length) :
    sAt (ps ++ [p]) i = sAt ps i := by
  simp [sAt, List.getElem?_append_left h]
theorem yAt_append_lt {ps : List (Pair n)} {p : Pair n} {i : ℕ} (h : i < ps.length) :
    yAt (ps ++ [p]) i = yAt ps i := by
  simp [yAt, List.getElem?_append_left h]
theorem sAt_append_len (ps : List (Pair n)) (p : Pair n) : sAt (ps ++ [p]) ps.length = p.1 := by
  simp [sAt]
theorem yAt_append_len (ps : List (Pair n)) (p : Pair n) : yAt (ps ++ [p]) ps.length = p.2 := by
  simp [yAt]

theorem sum_sAt {M : Type*} [AddCommMonoid M] (ps : List (Pair n)) (p : Pair n)
    (f : ℕ → RVec ℝ n → M) : ∑ j ∈ Finset.range ps.length, f j (sAt (ps ++ [p]) j)
      = ∑ j ∈ Finset.range ps.length, f j (sAt ps j) :=
  Finset.sum_congr rfl fun j hj => by rw [sAt_append_lt (Finset.mem_range.mp hj)]
theorem sum_yAt {M : Type*} [AddCommMonoid M] (ps : List (Pair n)) (p : Pair n)
    (f : ℕ → RVec ℝ n → M) : ∑ j ∈ Finset.range ps.length, f j (yAt (ps ++ [p]) j)
      = ∑ j ∈ Finset.range ps.length, f j (yAt ps j) :=
  Finset.sum_congr rfl fun j hj => by rw [yAt_append_lt (Finset.mem_range.mp hj)]

/-- `(a, b)` solves the middle system of the compact representation for the vector `x`:
`sigma SᵀS a + L b = -sigma Sᵀ x`, `Lᵀ a - D b = -Yᵀ x`, with `L` the strictly lower part of `SᵀY`
and `D` its diagonal. -/
structure Mid (sigma : ℝ) (ps : List (Pair n)) (x : RVec ℝ n) (a b : ℕ → ℝ) : Prop where
  top : ∀ i < ps.length,
    ∑ j ∈ Finset.range ps.length, sigma * (sAt ps i ⬝ᵥ sAt ps j) * a j
      + ∑ j ∈ Finset.range ps.length, (if j < i then sAt ps i ⬝ᵥ yAt ps j else 0) * b j
      = -(sigma * (sAt ps i ⬝ᵥ x))
  bot : ∀ i < ps.length,
    ∑ j ∈ Finset.range ps.length, (if i < j then sAt ps j ⬝ᵥ yAt ps i else 0) * a j
      - (sAt ps i ⬝ᵥ yAt ps i) * b i = -(yAt ps i ⬝ᵥ x)

/-- `B0 S a + Y b`. -/
noncomputable def comb (sigma : ℝ) (ps : List (Pair n)) (a b : ℕ → ℝ) : RVec ℝ n :=
  ∑ j ∈ Finset.range ps.length, (a j * sigma) • sAt ps j
    + ∑ j ∈ Finset.range ps.length, b j • yAt ps j

theorem comb_snoc (sigma : ℝ) (ps : List (Pair n)) (p : Pair n) (a b : ℕ → ℝ) :
    comb sigma (ps ++ [p]) a b
      = comb sigma ps a b + (a ps.length * sigma) • p.1 + b ps.length • p.2 := by
  unfold comb
  rw [List.length_append, List.length_singleton, Finset.sum_range_succ, Finset.sum_range_succ,
    sAt_append_len, yAt_append_len, sum_sAt ps p fun j v => (a j * sigma) • v,
    sum_yAt ps p fun j v => b j • v]
  abel

/-- One pair removed: the middle system of the shorter list for `x + α s`, and the two equations of
the last pair. -/
theorem Mid.pop {sigma : ℝ} {ps : List (Pair n)} {p : Pair n} {x : RVec ℝ n} {a b : ℕ → ℝ}
    (h : Mid sigma (ps ++ [p]) x a b) :
    Mid sigma ps (x + a ps.length • p.1) a b ∧
    p.1 ⬝ᵥ (sigma • (x + a ps.length • p.1) + comb sigma ps a b) = 0 ∧
    (p.1 ⬝ᵥ p.2) * b ps.length = p.2 ⬝ᵥ x := by
  have hl : (ps ++ [p]).length = ps.length + 1 := by simp
  obtain ⟨ht, hb⟩ := h
  rw [hl] at ht hb
  refine ⟨⟨fun i hi => ?_, fun i hi => ?_⟩, ?_, ?_⟩
  · have e := ht i (by omega)
    rw [Finset.sum_range_succ, Finset.sum_range_succ, if_neg (by omega : ¬ ps.length < i),
      sAt_append_len, sAt_append_lt hi,
      sum_sAt ps p fun j v => sigma * (sAt ps i ⬝ᵥ v) * a j,
      sum_yAt ps p fun j v => (if j < i then sAt ps i ⬝ᵥ v else 0) * b j] at e
    rw [dotProduct_add, dotProduct_smul, smul_eq_mul]
    linear_combination e
  · have e := hb i (by omega)
    rw [Finset.sum_range_succ, if_pos hi, sAt_append_len, sAt_append_lt hi, yAt_append_lt hi,
      sum_sAt ps p fun j v => (if i < j then v ⬝ᵥ yAt ps i else 0) * a j] at e
    rw [dotProduct_add, dotProduct_smul, smul_eq_mul, dotProduct_comm (yAt ps i) p.1]
    linear_combination e
  · have e := ht ps.length (by omega)
    rw [Finset.sum_range_succ, Finset.sum_range_succ, if_neg (lt_irrefl _), sAt_append_len,
      sum_sAt ps p fun j v => sigma * (p.1 ⬝ᵥ v) * a j,
      sum_yAt ps p fun j v => (if j < ps.length then p.1 ⬝ᵥ v else 0) * b j] at e
    simp only [comb, dotProduct_add, dotProduct_smul, smul_eq_mul, dotProduct_sum]
    have e1 : ∑ j ∈ Finset.range ps.length, sigma * (p.1 ⬝ᵥ sAt ps j) * a j
        = ∑ j ∈ Finset.range ps.length, a j * sigma * (p.1 ⬝ᵥ sAt ps j) :=
      Finset.sum_congr rfl fun j _ => by ring
    have e2 : ∑ j ∈ Finset.range ps.length, (if j < ps.length then p.1 ⬝ᵥ yAt ps j else 0) * b j
        = ∑ j ∈ Finset.range ps.length, b j * (p.1 ⬝ᵥ yAt ps j) :=
      Finset.sum_congr rfl fun j hj => by rw [if_pos (Finset.mem_range.mp hj)]; ring
    rw [e1, e2] at e
    linear_combination e
  · have e := hb ps.length (by omega)
    rw [Finset.sum_range_succ, if_neg (lt_irrefl _), sAt_append_len, yAt_append_len,
      Finset.sum_eq_zero (fun j hj => by
        rw [if_neg (by have := Finset.mem_range.mp hj; omega), zero_mul])] at e
    linear_combination -e

/-- **Compact representation.** If `(a, b)` solves the middle system for `x`, then
`B x = B0 x + B0 S a + Y b`. -/
theorem compact {sigma : ℝ} (hs : 0 < sigma) (ps : List (Pair n)) (hp : PosPairs ps)
    (x : RVec ℝ n) (a b : ℕ → ℝ) (h : Mid sigma ps x a b) :
    bfgs sigma ps *ᵥ x = sigma • x + comb sigma ps a b := by
  induction ps using List.reverseRecOn generalizing x with
  | nil => simp [bfgs, comb, smul_mulVec]
  | append_singleton ps p ih =>
    have hp' : PosPairs ps := fun q hq => hp q (by simp [hq])
    have hB := bfgs_spd hs ps hp'
    have hc : 0 < p.1 ⬝ᵥ p.2 := hp p (by simp)
    have hne : p.1 ≠ 0 := by
      intro h; rw [h] at hc; simp at hc
    have hq := hB.2 _ hne
    obtain ⟨h1, h2, h3⟩ := h.pop
    have e := ih hp' _ h1
    rw [← e, mulVec_add, mulVec_smul, dotProduct_add, dotProduct_smul, smul_eq_mul] at h2
    rw [mulVec_add, mulVec_smul] at e
    have ha : (bfgs sigma ps *ᵥ p.1 ⬝ᵥ x) / (p.1 ⬝ᵥ bfgs sigma ps *ᵥ p.1) = -a ps.length := by
      rw [div_eq_iff hq.ne', dotProduct_comm, symm_dot hB.1]
      linear_combination h2
    have hb : (p.2 ⬝ᵥ x) / (p.1 ⬝ᵥ p.2) = b ps.length := by
      rw [div_eq_iff hc.ne', ← h3]; ring
    rw [bfgs_snoc, bfgsUpd_mulVec, ha, hb, comb_snoc]
    have e' : bfgs sigma ps *ᵥ x
        = sigma • (x + a ps.length • p.1) + comb sigma ps a b
          - a ps.length • bfgs sigma ps *ᵥ p.1 := by
      rw [← e]; abel
    rw [e']
    funext i
    simp only [Pi.add_apply, Pi.sub_apply, Pi.smul_apply, smul_eq_mul, Pi.neg_apply]
    ring

/-- The middle system with zero right-hand side has only the zero solution. -/
theorem mid_unique {sigma : ℝ} (hs : 0 < sigma) (ps : List (Pair n)) (hp : PosPairs ps)
    (a b : ℕ → ℝ) (h : Mid sigma ps 0 a b) : ∀ i < ps.length, a i = 0 ∧ b i = 0 := by
  induction ps using List.reverseRecOn with
  | nil => intro i hi; simp at hi
  | append_singleton ps p ih =>
    have hp' : PosPairs ps := fun q hq => hp q (by simp [hq])
    have hB := bfgs_spd hs ps hp'
    have hc : 0 < p.1 ⬝ᵥ p.2 := hp p (by simp)
    have hne : p.1 ≠ 0 := by
      intro h; rw [h] at hc; simp at hc
    have hq := hB.2 _ hne
    obtain ⟨h1, h2, h3⟩ := h.pop
    rw [← compact hs ps hp' _ _ _ h1, zero_add, mulVec_smul, dotProduct_smul, smul_eq_mul] at h2
    have ha : a ps.length = 0 := by
      rcases mul_eq_zero.mp h2 with h | h
      · exact h
      · exact absurd h hq.ne'
    have hb : b ps.length = 0 := by
      rw [dotProduct_zero] at h3
      rcases mul_eq_zero.mp h3 with h | h
      · exact absurd h hc.ne'
      · exact h
    rw [ha, zero_smul, add_zero] at h1
    intro i hi
    rw [List.length_append, List.length_singleton] at hi
    rcases Nat.lt_succ_iff_lt_or_eq.mp hi with hi | rfl
    · exact ih hp' h1 i hi
    · exact ⟨ha, hb⟩

end Hiop.QN
