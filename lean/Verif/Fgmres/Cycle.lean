import Verif.Fgmres.Gs
import Mathlib.Tactic.LinearCombination
import Mathlib.LinearAlgebra.Matrix.ToLin

/-!
# One cycle of FGMRES minimizes the residual

The QR factorization by rotations is followed with two sequences of vectors: `U` (finished) and `P` (pending), both
computed from the basis and the rotations.
-/

namespace Hiop.Fgmres

variable {n : ℕ}

/-- The pending vector after `k` rotations. -/
noncomputable def P (m : Mem n) : ℕ → Vec n
  | 0 => m.V 0
  | k + 1 => (-(m.s k)) • P m k + m.c k • m.V (k + 1)

/-- The vector finished by rotation `k`. -/
noncomputable def U (m : Mem n) (k : ℕ) : Vec n := m.c k • P m k + m.s k • m.V (k + 1)

theorem P_congr {m m' : Mem n} (q : ℕ) (hV : ∀ j ≤ q, m'.V j = m.V j) (hc : ∀ j < q, m'.c j = m.c j)
    (hs : ∀ j < q, m'.s j = m.s j) : P m' q = P m q := by
  induction q with
  | zero => exact hV 0 le_rfl
  | succ q ih =>
    simp only [P]
    rw [ih (fun j hj => hV j (by omega)) (fun j hj => hc j (by omega)) (fun j hj => hs j (by omega)),
      hc q (by omega), hs q (by omega), hV (q + 1) le_rfl]

theorem U_congr {m m' : Mem n} (q : ℕ) (hV : ∀ j ≤ q + 1, m'.V j = m.V j) (hc : ∀ j ≤ q, m'.c j = m.c j)
    (hs : ∀ j ≤ q, m'.s j = m.s j) : U m' q = U m q := by
  simp only [U]
  rw [P_congr q (fun j hj => hV j (by omega)) (fun j hj => hc j (by omega)) (fun j hj => hs j (by omega)),
    hc q le_rfl, hs q le_rfl, hV (q + 1) le_rfl]

theorem PU (m : Mem n) (p : ℕ) (hon : ON m.V (p + 1)) (hcs : ∀ k < p, m.c k ^ 2 + m.s k ^ 2 = 1) (q : ℕ) (hq : q ≤ p) :
    P m q ⬝ᵥ P m q = 1 ∧ (∀ k, q < k → k ≤ p → m.V k ⬝ᵥ P m q = 0) ∧ (∀ j < q, U m j ⬝ᵥ P m q = 0) ∧
    ON (U m) q ∧ (∀ j < q, ∀ k, q < k → k ≤ p → m.V k ⬝ᵥ U m j = 0) := by
  induction q with
  | zero =>
    refine ⟨?_, fun k h1 h2 => ?_, by simp, fun j hj => absurd hj (by omega), by simp⟩
    · simp only [P]; rw [hon 0 (by omega) 0 (by omega)]; simp
    · simp only [P]; rw [hon k (by omega) 0 (by omega), if_neg (by omega)]
  | succ q ih =>
    obtain ⟨a, b, d, e, f⟩ := ih (by omega)
    have cs := hcs q (by omega)
    have WP : m.V (q + 1) ⬝ᵥ P m q = 0 := b (q + 1) (by omega) hq
    have PW : P m q ⬝ᵥ m.V (q + 1) = 0 := by rw [dotProduct_comm]; exact WP
    have WW : m.V (q + 1) ⬝ᵥ m.V (q + 1) = 1 := by rw [hon _ (by omega) _ (by omega)]; simp
    have UP : ∀ j < q, U m j ⬝ᵥ P m q = 0 := d
    have UW : ∀ j < q, U m j ⬝ᵥ m.V (q + 1) = 0 := fun j hj => by
      rw [dotProduct_comm]; exact f j hj (q + 1) (by omega) hq
    have uu : U m q ⬝ᵥ U m q = 1 := by
      simp only [U, dotProduct_add, add_dotProduct, dotProduct_smul, smul_dotProduct, smul_eq_mul, a, WW, WP, PW]
      linear_combination cs
    have uj : ∀ j < q, U m j ⬝ᵥ U m q = 0 := by
      intro j hj
      conv_lhs => rw [show U m q = m.c q • P m q + m.s q • m.V (q + 1) from rfl]
      simp only [dotProduct_add, dotProduct_smul, smul_eq_mul, UP j hj, UW j hj]; ring
    refine ⟨?_, fun k h1 h2 => ?_, fun j hj => ?_, fun j hj k hk => ?_, fun j hj k h1 h2 => ?_⟩
    · simp only [P, dotProduct_add, add_dotProduct, dotProduct_smul, smul_dotProduct, smul_eq_mul, a, WW, WP, PW]
      linear_combination cs
    · simp only [P, dotProduct_add, dotProduct_smul, smul_eq_mul]
      rw [b k (by omega) h2, hon k (by omega) (q + 1) (by omega), if_neg (by omega)]; ring
    · by_cases ej : j = q
      · subst ej
        simp only [U, P, dotProduct_add, add_dotProduct, dotProduct_smul, smul_dotProduct, smul_eq_mul, a, WW, WP, PW]
        ring
      · simp only [P, dotProduct_add, dotProduct_smul, smul_eq_mul]
        rw [UP j (by omega), UW j (by omega)]; ring
    · by_cases ej : j = q
      · by_cases ek : k = q
        · subst ej; subst ek; simp [uu]
        · subst ej; rw [dotProduct_comm, uj k (by omega), if_neg (by omega)]
      · by_cases ek : k = q
        · subst ek; rw [uj j (by omega), if_neg ej]
        · exact e j (by omega) k (by omega)
    · by_cases ej : j = q
      · subst ej
        simp only [U, dotProduct_add, dotProduct_smul, smul_eq_mul]
        rw [b k (by omega) h2, hon k (by omega) (j + 1) (by omega), if_neg (by omega)]; ring
      · exact f j (by omega) k (by omega) h2

/-- `V` and `Z` are bases of a flexible Krylov method: the first vector is the normalized residual `r`, the others
are orthonormalized products of the matrix with the preconditioned vectors. -/
structure Kry (c : Cfg n) (r : Vec n) (it0 : ℕ) (V Z : ℕ → Vec n) (p : ℕ) : Prop where
  on : ON V p
  first : V 0 = (1 / norm2 r) • r
  z : ∀ k < p, Z k = c.lu (it0 + k) (V k)
  az : ∀ k < p, ∃ g : ℕ → ℝ, c.A.mulVec (Z k) = ∑ j ∈ Finset.range (k + 2), g j • V j

/-- The state after `p` iterations of a cycle that started with the residual `r`, while all goes on. -/
structure J (c : Cfg n) (r : Vec n) (it0 : ℕ) (m : Mem n) (p : ℕ) : Prop where
  kry : Kry c r it0 m.V m.Z p
  on : ON m.V (p + 1)
  cs : ∀ k < p, m.c k ^ 2 + m.s k ^ 2 = 1
  az : ∀ k < p, c.A.mulVec (m.Z k) = ∑ j ∈ Finset.range (k + 1), m.H k j • U m j
  diag : ∀ k < p, m.H k k ≠ 0
  r : r = (∑ j ∈ Finset.range p, m.rs j • U m j) + m.rs p • P m p
  L : (c.orth = .twoSynch ∨ c.orth = .pm) → LZ m.L p

/-- What the end of a cycle needs. -/
structure F (c : Cfg n) (r : Vec n) (it0 : ℕ) (m : Mem n) (p : ℕ) (u : ℕ → Vec n) (w : Vec n) : Prop where
  kry : Kry c r it0 m.V m.Z p
  on : ON u p
  perp : ∀ j < p, u j ⬝ᵥ w = 0
  ww : w ⬝ᵥ w = m.rs p * m.rs p
  az : ∀ k < p, c.A.mulVec (m.Z k) = ∑ j ∈ Finset.range (k + 1), m.H k j • u j
  diag : ∀ k < p, m.H k k ≠ 0
  r : r = (∑ j ∈ Finset.range p, m.rs j • u j) + w

theorem J.toF {c : Cfg n} {r : Vec n} {it0 : ℕ} {m : Mem n} {p : ℕ} (h : J c r it0 m p) :
    F c r it0 m p (U m) (m.rs p • P m p) := by
  obtain ⟨a, _, d, e, _⟩ := PU m p h.on h.cs p le_rfl
  refine ⟨h.kry, e, fun j hj => ?_, ?_, h.az, h.diag, h.r⟩
  · rw [dotProduct_smul, d j hj, smul_zero]
  · rw [dotProduct_smul, smul_dotProduct, a]; simp

/-! ### The rotations of a column -/

theorem givens_fold (m : Mem n) (h : ℕ → ℝ) (i : ℕ) (hcs : ∀ k < i, m.c k ^ 2 + m.s k ^ 2 = 1) (q : ℕ) (hq : q ≤ i) :
    let h' := (List.range q).foldl (givensStep m.c m.s) h
    (∀ j, q < j → h' j = h j) ∧
    ∑ j ∈ Finset.range (i + 1), h j • m.V j =
      (∑ j ∈ Finset.range q, h' j • U m j) + h' q • P m q + ∑ j ∈ Finset.Ico (q + 1) (i + 1), h j • m.V j := by
  induction q with
  | zero =>
    refine ⟨fun _ _ => rfl, ?_⟩
    simp only [List.range_zero, List.foldl_nil, Finset.range_zero, Finset.sum_empty, zero_add, P]
    rw [Finset.range_eq_Ico, Finset.sum_eq_sum_Ico_succ_bot (by omega)]
  | succ q ih =>
    obtain ⟨g1, g2⟩ := ih (by omega)
    simp only [List.range_succ, List.foldl_append, List.foldl_cons, List.foldl_nil]
    generalize (List.range q).foldl (givensStep m.c m.s) h = a at g1 g2 ⊢
    have cs := hcs q (by omega)
    have e1 : givensStep m.c m.s a q (q + 1) = -m.s q * a q + m.c q * a (q + 1) := by
      simp only [givensStep, set1_same]; rw [set1_ne _ _ (by omega)]
    have e2 : givensStep m.c m.s a q q = m.c q * a q + m.s q * a (q + 1) := by
      simp only [givensStep]; rw [set1_ne _ _ (by omega), set1_same]
    have e3 : ∀ j, j ≠ q → j ≠ q + 1 → givensStep m.c m.s a q j = a j := by
      intro j h1 h2; simp only [givensStep]; rw [set1_ne _ _ h2, set1_ne _ _ h1]
    refine ⟨fun j hj => by rw [e3 j (by omega) (by omega)]; exact g1 j (by omega), ?_⟩
    rw [g2, Finset.sum_range_succ _ q, e1, e2, Finset.sum_eq_sum_Ico_succ_bot (by omega : q + 1 < i + 1),
      Finset.sum_congr rfl (fun j hj => by
        have := Finset.mem_range.1 hj
        rw [e3 j (by omega) (by omega)] : ∀ j ∈ Finset.range q, givensStep m.c m.s a q j • U m j = a j • U m j),
      ← g1 (q + 1) (by omega)]
    have key : a q • P m q + a (q + 1) • m.V (q + 1) =
        (m.c q * a q + m.s q * a (q + 1)) • U m q + (-m.s q * a q + m.c q * a (q + 1)) • P m (q + 1) := by
      simp only [U, P]
      have h1 : (m.c q * a q + m.s q * a (q + 1)) • (m.c q • P m q + m.s q • m.V (q + 1)) +
          (-m.s q * a q + m.c q * a (q + 1)) • (-m.s q • P m q + m.c q • m.V (q + 1)) =
          ((m.c q ^ 2 + m.s q ^ 2) * a q) • P m q + ((m.c q ^ 2 + m.s q ^ 2) * a (q + 1)) • m.V (q + 1) := by module
      rw [h1, cs, one_mul, one_mul]
    rw [add_assoc, add_assoc, ← add_assoc (a q • P m q), key]
    abel

/-- The new rotation is a rotation unless the guard is taken. -/
theorem rotate_cs {a b g : ℝ} (hg : g = √(a * a + b * b)) (hne : g ≠ 0) : (a / g) ^ 2 + (b / g) ^ 2 = 1 := by
  have h0 : 0 ≤ a * a + b * b := by nlinarith [mul_self_nonneg a, mul_self_nonneg b]
  have : g * g = a * a + b * b := by rw [hg]; exact Real.mul_self_sqrt h0
  rw [div_pow, div_pow, ← add_div, div_eq_one_iff_eq (by positivity)]
  linarith

theorem eps_pos : 0 < EPSILON := by unfold EPSILON; positivity

/-- **One iteration.** -/
theorem body_J (c : Cfg n) (r : Vec n) (it0 : ℕ) (s s' : Cyc n) (hJ : J c r it0 s.m s.p) (hit : s.it = it0 + s.p)
    (h : body c s = .ok s') (ht : s'.tiny = false) :
    s'.p = s.p + 1 ∧ s'.it = s.it + 1 ∧ s.tiny = false ∧ s'.rnorm = |s'.m.rs s'.p| ∧
    (J c r it0 s'.m s'.p ∨ s'.rnorm = 0 ∧ c.dbg = false ∧ ∃ u w, F c r it0 s'.m s'.p u w) := by
  unfold body at h
  simp only at h
  split at h
  · cases h
  · rename_i m1 hg
    cases h
    simp only [Bool.or_eq_false_iff, decide_eq_false_iff_not, not_le] at ht
    obtain ⟨ht1, ht2⟩ := ht
    refine ⟨rfl, rfl, ht1, rfl, ?_⟩
    -- Gram-Schmidt
    have hon0 : ON (set1 s.m.V (s.p + 1) (c.A.mulVec (c.lu s.it (s.m.V s.p)))) (s.p + 1) := by
      intro j hj k hk
      rw [set1_ne _ _ (by omega), set1_ne _ _ (by omega)]
      exact hJ.on j hj k hk
    obtain ⟨fr, hL, hpos, hdec, hon, hzero⟩ := gramSchmidt_spec c s.p _ m1 (by exact hon0) (by exact hJ.L) hg
    simp only at fr hdec
    have frV : ∀ j ≤ s.p, m1.V j = s.m.V j := by
      intro j hj
      rw [fr.V j (by omega)]; simp only; exact set1_ne _ _ (by omega)
    have frc : m1.c = s.m.c := fr.c
    have frs : m1.s = s.m.s := fr.s
    have frrs : m1.rs = s.m.rs := fr.rs
    have hZk : ∀ k < s.p, m1.Z k = s.m.Z k := by
      intro k hk; rw [fr.Z]; exact set1_ne _ _ (by omega)
    have hZp : m1.Z s.p = c.lu s.it (s.m.V s.p) := by rw [fr.Z]; exact set1_same _ _ _
    rw [set1_same] at hdec
    have hdec' : c.A.mulVec (c.lu s.it (s.m.V s.p)) =
        (∑ j ∈ Finset.range (s.p + 1), m1.H s.p j • m1.V j) + m1.H s.p (s.p + 1) • m1.V (s.p + 1) := by
      rw [hdec]
      congr 1
      refine Finset.sum_congr rfl fun j hj => ?_
      have := Finset.mem_range.1 hj
      rw [frV j (by omega), set1_ne _ _ (by omega)]
    have hcs : ∀ k < s.p, m1.c k ^ 2 + m1.s k ^ 2 = 1 := by rw [frc, frs]; exact hJ.cs
    obtain ⟨g1, g2⟩ := givens_fold m1 (m1.H s.p) s.p hcs s.p le_rfl
    -- names
    set p := s.p with hp
    set a := (List.range p).foldl (givensStep m1.c m1.s) (m1.H p) with ha
    have hap1 : a (p + 1) = m1.H p (p + 1) := g1 (p + 1) (by omega)
    rw [Finset.Ico_self, Finset.sum_empty, add_zero] at g2
    have gH : (givens p m1).H p = a := by simp only [givens, set1_same]; rfl
    have hgam : gam p (givens p m1) = √(a p * a p + a (p + 1) * a (p + 1)) := by simp only [gam, gH]
    set g := gam p (givens p m1) with hgdef
    have gnn : 0 ≤ g := by rw [hgam]; exact Real.sqrt_nonneg _
    have gpos : 0 < g := by
      rw [abs_of_nonneg gnn] at ht2; linarith [eps_pos]
    have hcs' := rotate_cs hgam gpos.ne'
    have gg : g * g = a p * a p + a (p + 1) * a (p + 1) := by
      rw [hgam]; exact Real.mul_self_sqrt (by nlinarith [mul_self_nonneg (a p), mul_self_nonneg (a (p + 1))])
    -- the state after the rotation
    set m3 := rotate p (givens p m1) with hm3
    have guard : ¬ |g - 0| ≤ EPSILON := by rw [sub_zero]; exact not_le.2 ht2
    have c3 : m3.c = set1 m1.c p (a p / g) := by
      simp only [hm3, rotate, ← hgdef, if_neg guard, gH]; rfl
    have s3 : m3.s = set1 m1.s p (a (p + 1) / g) := by
      simp only [hm3, rotate, ← hgdef, if_neg guard, gH]; rfl
    have V3 : m3.V = m1.V := rfl
    have Z3 : m3.Z = m1.Z := rfl
    have L3 : m3.L = m1.L := rfl
    have rs3a : m3.rs (p + 1) = -(a (p + 1) / g) * m1.rs p := by
      simp only [hm3, rotate, ← hgdef, if_neg guard, gH, set1_same]
      rw [set1_ne _ _ (by omega), set1_same]; rfl
    have rs3b : m3.rs p = a p / g * m1.rs p := by
      simp only [hm3, rotate, ← hgdef, if_neg guard, gH, set1_same]
      rw [set1_ne _ _ (by omega : p ≠ p + 1)]; rfl
    have rs3c : ∀ j < p, m3.rs j = m1.rs j := by
      intro j hj
      simp only [hm3, rotate]
      rw [set1_ne _ _ (by omega), set1_ne _ _ (by omega)]; rfl
    have H3k : ∀ k, k ≠ p → m3.H k = s.m.H k := by
      intro k hk
      simp only [hm3, rotate, set2, givens]
      rw [set1_ne _ _ hk, set1_ne _ _ hk, set1_ne _ _ hk]
      exact fr.H k hk
    have H3d : m3.H p p = g := by
      simp only [hm3, rotate, ← hgdef, if_neg guard, set2, set1_same, gH]
      rw [set1_ne _ _ (by omega : p ≠ p + 1), set1_same]
      field_simp
      nlinarith
    have H3j : ∀ j < p, m3.H p j = a j := by
      intro j hj
      simp only [hm3, rotate, ← hgdef, if_neg guard, set2, set1_same, gH]
      rw [set1_ne _ _ (by omega), set1_ne _ _ (by omega)]
    have Pk : ∀ k ≤ p, P m3 k = P m1 k := fun k hk => P_congr k (fun _ _ => by rw [V3])
      (fun j hj => by rw [c3]; exact set1_ne _ _ (by omega)) (fun j hj => by rw [s3]; exact set1_ne _ _ (by omega))
    have Uk : ∀ k < p, U m3 k = U m1 k := fun k hk => U_congr k (fun _ _ => by rw [V3])
      (fun j hj => by rw [c3]; exact set1_ne _ _ (by omega)) (fun j hj => by rw [s3]; exact set1_ne _ _ (by omega))
    have P0 : ∀ k ≤ p, P m1 k = P s.m k := fun k hk => P_congr k (fun j hj => frV j (by omega))
      (fun j _ => by rw [frc]) (fun j _ => by rw [frs])
    have U0 : ∀ k < p, U m1 k = U s.m k := fun k hk => U_congr k (fun j hj => frV j (by omega))
      (fun j _ => by rw [frc]) (fun j _ => by rw [frs])
    have UP : U m3 p = (a p / g) • P m3 p + (a (p + 1) / g) • m1.V (p + 1) := by
      simp only [U]; rw [c3, s3, set1_same, set1_same, V3]
    have PP : P m3 (p + 1) = (-(a (p + 1) / g)) • P m3 p + (a p / g) • m1.V (p + 1) := by
      simp only [P]; rw [c3, s3, set1_same, set1_same, V3]
    have az3 : ∀ k < p + 1, c.A.mulVec (m3.Z k) = ∑ j ∈ Finset.range (k + 1), m3.H k j • U m3 j := by
      intro k hk
      by_cases e : k = p
      · subst e
        rw [Z3, hZp, hdec', g2, Finset.sum_range_succ, H3d]
        rw [Finset.sum_congr rfl (fun j hj => by
          have := Finset.mem_range.1 hj
          rw [H3j j (by omega), Uk j (by omega)] :
            ∀ j ∈ Finset.range p, m3.H p j • U m3 j = a j • U m1 j)]
        rw [add_assoc, UP, ← Pk p le_rfl, ← hap1]
        congr 1
        rw [smul_add, smul_smul, smul_smul, mul_div_cancel₀ _ gpos.ne', mul_div_cancel₀ _ gpos.ne']
      · rw [Z3, hZk k (by omega), hJ.az k (by omega), H3k k e]
        refine Finset.sum_congr rfl fun j hj => ?_
        have := Finset.mem_range.1 hj
        rw [Uk j (by omega), U0 j (by omega)]
    have diag3 : ∀ k < p + 1, m3.H k k ≠ 0 := by
      intro k hk
      by_cases e : k = p
      · subst e; rw [H3d]; exact gpos.ne'
      · rw [H3k k e]; exact hJ.diag k (by omega)
    have hr : r = (∑ j ∈ Finset.range (p + 1), m3.rs j • U m3 j) + m3.rs (p + 1) • P m3 (p + 1) := by
      have e0 := hJ.r
      have e1 : ∑ j ∈ Finset.range p, s.m.rs j • U s.m j = ∑ j ∈ Finset.range p, m3.rs j • U m3 j := by
        refine Finset.sum_congr rfl fun j hj => ?_
        have := Finset.mem_range.1 hj
        rw [rs3c j this, frrs, Uk j this, U0 j this]
      rw [Finset.sum_range_succ, add_assoc, e0, e1]
      congr 1
      rw [rs3a, rs3b, UP, PP, frrs, Pk p le_rfl, P0 p le_rfl]
      have : (a p / g * s.m.rs p) • ((a p / g) • P s.m p + (a (p + 1) / g) • m1.V (p + 1)) +
          (-(a (p + 1) / g) * s.m.rs p) • (-(a (p + 1) / g) • P s.m p + (a p / g) • m1.V (p + 1)) =
          (((a p / g) ^ 2 + (a (p + 1) / g) ^ 2) * s.m.rs p) • P s.m p := by module
      rw [this, hcs', one_mul]
    have kry3 : Kry c r it0 m3.V m3.Z (p + 1) := by
      refine ⟨?_, ?_, fun k hk => ?_, fun k hk => ?_⟩
      · intro j hj k hk
        rw [V3, frV j (by omega), frV k (by omega)]; exact hJ.on j (by omega) k (by omega)
      · rw [V3, frV 0 (by omega)]; exact hJ.kry.first
      · by_cases e : k = p
        · subst e; rw [Z3, hZp, V3, frV p le_rfl, hit]
        · rw [Z3, hZk k (by omega), V3, frV k (by omega)]; exact hJ.kry.z k (by omega)
      · by_cases e : k = p
        · subst e
          refine ⟨m1.H p, ?_⟩
          rw [Z3, hZp, hdec', V3, Finset.sum_range_succ _ (p + 1)]
        · obtain ⟨g', hg'⟩ := hJ.kry.az k (by omega)
          refine ⟨g', ?_⟩
          rw [Z3, hZk k (by omega), hg']
          refine Finset.sum_congr rfl fun j hj => ?_
          have := Finset.mem_range.1 hj
          rw [V3, frV j (by omega)]
    show J c r it0 m3 (p + 1) ∨ |m3.rs (p + 1)| = 0 ∧ c.dbg = false ∧ ∃ u w, F c r it0 m3 (p + 1) u w
    by_cases hz : m1.H p (p + 1) = 0
    · right
      have v0 := hzero hz
      have az0 : a (p + 1) = 0 := hap1.trans hz
      have r0 : m3.rs (p + 1) = 0 := by rw [rs3a, az0]; ring
      refine ⟨by rw [r0, abs_zero], ?_, U m3, 0, kry3, ?_, fun j _ => dotProduct_zero _, ?_, az3, diag3, ?_⟩
      · by_contra hdbg
        exact gramSchmidt_dbg c p _ m1 (by simpa using hdbg) hg hz
      · obtain ⟨a1, _, d1, e1, _⟩ := PU s.m p hJ.on hJ.cs p le_rfl
        have hc2 : (a p / g) * (a p / g) = 1 := by
          rw [az0] at hcs'; rw [zero_div] at hcs'; nlinarith
        have up : U m3 p = (a p / g) • P s.m p := by
          rw [UP, v0, smul_zero, add_zero, Pk p le_rfl, P0 p le_rfl]
        intro j hj k hk
        by_cases ej : j = p
        · by_cases ek : k = p
          · rw [ej, ek, up, dotProduct_smul, smul_dotProduct, a1]
            simp [hc2]
          · rw [ej, up, Uk k (by omega), U0 k (by omega), smul_dotProduct, dotProduct_comm, d1 k (by omega),
              smul_zero, if_neg (by omega)]
        · by_cases ek : k = p
          · rw [ek, up, Uk j (by omega), U0 j (by omega), dotProduct_smul, d1 j (by omega), smul_zero,
              if_neg (by omega)]
          · rw [Uk j (by omega), U0 j (by omega), Uk k (by omega), U0 k (by omega)]
            exact e1 j (by omega) k (by omega)
      · rw [r0]; simp
      · rw [hr, r0, zero_smul]
    · left
      refine ⟨kry3, ?_, fun k hk => ?_, az3, diag3, hr, ?_⟩
      · rw [V3]; exact hon hz
      · by_cases e : k = p
        · subst e; rw [c3, s3, set1_same, set1_same]; exact hcs'
        · rw [c3, s3, set1_ne _ _ e, set1_ne _ _ e]; exact hcs k (by omega)
      · rw [L3]; exact hL

/-! ### The end of a cycle -/

theorem back_spec (H : ℕ → ℕ → ℝ) (i : ℕ) (rs : ℕ → ℝ) (hd : ∀ k ≤ i, H k k ≠ 0) (k : ℕ) (hk : k ≤ i) :
    ∑ j ∈ Finset.Icc k i, H j k * back H i rs j = rs k := by
  let f : ℕ → (ℕ → ℝ) → (ℕ → ℝ) := fun k r => set1 r k ((r k - ∑ j ∈ Finset.Icc (k + 1) i, H j k * r j) / H k k)
  have hb : back H i rs = (List.range i).foldr f (set1 rs i (rs i / H i i)) := by
    unfold back; rw [List.foldl_reverse]
  have main : ∀ d q, q + d = i →
      let y := (List.range' q d).foldr f (set1 rs i (rs i / H i i))
      (∀ k < q, y k = rs k) ∧ ∀ k, q ≤ k → k ≤ i → ∑ j ∈ Finset.Icc k i, H j k * y j = rs k := by
    intro d
    induction d with
    | zero =>
      intro q hq
      simp only [List.range'_zero, List.foldr_nil]
      refine ⟨fun k hk => set1_ne _ _ (by omega), fun k h1 h2 => ?_⟩
      have : k = i := by omega
      subst this
      rw [Finset.Icc_self, Finset.sum_singleton, set1_same, mul_div_cancel₀ _ (hd k le_rfl)]
    | succ d ih =>
      intro q hq
      obtain ⟨g1, g2⟩ := ih (q + 1) (by omega)
      simp only [List.range'_succ, List.foldr_cons]
      generalize (List.range' (q + 1) d).foldr f (set1 rs i (rs i / H i i)) = y at g1 g2
      refine ⟨fun k hk => ?_, fun k h1 h2 => ?_⟩
      · simp only [f]; rw [set1_ne _ _ (by omega)]; exact g1 k (by omega)
      · by_cases e : k = q
        · subst e
          rw [← Finset.add_sum_Ioc_eq_sum_Icc h2]
          have hI : Finset.Ioc k i = Finset.Icc (k + 1) i := by
            ext j; simp only [Finset.mem_Ioc, Finset.mem_Icc]; omega
          rw [hI, Finset.sum_congr rfl (fun j hj => by
            have := Finset.mem_Icc.1 hj
            simp only [f]; rw [set1_ne _ _ (by omega)] :
            ∀ j ∈ Finset.Icc (k + 1) i, H j k * f k y j = H j k * y j)]
          simp only [f, set1_same]
          rw [mul_div_cancel₀ _ (hd k h2), g1 k (by omega)]
          ring
        · rw [← g2 k (by omega) h2]
          refine Finset.sum_congr rfl fun j hj => ?_
          have := Finset.mem_Icc.1 hj
          simp only [f]; rw [set1_ne _ _ (by omega)]
  rw [hb, List.range_eq_range']
  exact (main i 0 (by omega)).2 k (by omega) hk

theorem normsq {u : ℕ → Vec n} {w : Vec n} {p : ℕ} (hon : ON u p) (hp : ∀ j < p, u j ⬝ᵥ w = 0) (g : ℕ → ℝ) :
    ((∑ j ∈ Finset.range p, g j • u j) + w) ⬝ᵥ ((∑ j ∈ Finset.range p, g j • u j) + w) =
      (∑ j ∈ Finset.range p, g j * g j) + w ⬝ᵥ w := by
  have h1 : (∑ j ∈ Finset.range p, g j • u j) ⬝ᵥ w = 0 := by
    rw [sum_dotProduct]
    refine Finset.sum_eq_zero fun j hj => ?_
    rw [smul_dotProduct, hp j (Finset.mem_range.1 hj), smul_zero]
  have h2 : (∑ j ∈ Finset.range p, g j • u j) ⬝ᵥ (∑ j ∈ Finset.range p, g j • u j) =
      ∑ j ∈ Finset.range p, g j * g j := by
    rw [sum_dotProduct]
    refine Finset.sum_congr rfl fun j hj => ?_
    have := Finset.mem_range.1 hj
    rw [smul_dotProduct, dot_sum hon g le_rfl this, if_pos this, smul_eq_mul]
  rw [dotProduct_add, add_dotProduct, add_dotProduct, h2, h1, dotProduct_comm w, h1]
  ring

theorem mulVec_comb {c : Cfg n} {r : Vec n} {it0 : ℕ} {m : Mem n} {p : ℕ} {u : ℕ → Vec n} {w : Vec n}
    (h : F c r it0 m p u w) (z : ℕ → ℝ) : c.A.mulVec (∑ k ∈ Finset.range p, z k • m.Z k) =
      ∑ j ∈ Finset.range p, (∑ k ∈ Finset.Icc j (p - 1), m.H k j * z k) • u j := by
  have hs : c.A.mulVec (∑ k ∈ Finset.range p, z k • m.Z k) = ∑ k ∈ Finset.range p, c.A.mulVec (z k • m.Z k) :=
    map_sum (Matrix.mulVecLin c.A) _ _
  rw [hs]
  have : ∀ k ∈ Finset.range p, c.A.mulVec (z k • m.Z k) = ∑ j ∈ Finset.range (k + 1), (m.H k j * z k) • u j := by
    intro k hk
    rw [Matrix.mulVec_smul, h.az k (Finset.mem_range.1 hk), Finset.smul_sum]
    refine Finset.sum_congr rfl fun j _ => ?_
    rw [smul_smul, mul_comm]
  rw [Finset.sum_congr rfl this]
  simp only [Finset.sum_smul]
  refine Finset.sum_comm' fun k j => ?_
  simp only [Finset.mem_range, Finset.mem_Icc]
  omega

/-- The coefficients computed at the end of a cycle make the residual as small as possible, and its norm is the
estimate. -/
theorem cycle_best {c : Cfg n} {r : Vec n} {it0 : ℕ} {m : Mem n} {p : ℕ} {u : ℕ → Vec n} {w : Vec n}
    (h : F c r it0 m p u w) (hp : p ≠ 0) :
    norm2 (r - c.A.mulVec (∑ k ∈ Finset.range p, back m.H (p - 1) m.rs k • m.Z k)) = |m.rs p| ∧
    ∀ z : ℕ → ℝ, |m.rs p| ≤ norm2 (r - c.A.mulVec (∑ k ∈ Finset.range p, z k • m.Z k)) := by
  have comb : ∀ z : ℕ → ℝ, r - c.A.mulVec (∑ k ∈ Finset.range p, z k • m.Z k) =
      (∑ j ∈ Finset.range p, (m.rs j - ∑ k ∈ Finset.Icc j (p - 1), m.H k j * z k) • u j) + w := by
    intro z
    rw [mulVec_comb h]
    conv_lhs => rw [h.r]
    simp only [sub_smul, Finset.sum_sub_distrib]
    abel
  constructor
  · rw [comb, Finset.sum_eq_zero, zero_add, norm2, h.ww, Real.sqrt_mul_self_eq_abs]
    intro j hj
    have := Finset.mem_range.1 hj
    rw [back_spec m.H (p - 1) m.rs (fun k hk => h.diag k (by omega)) j (by omega), sub_self, zero_smul]
  · intro z
    rw [comb, norm2, normsq h.on h.perp, h.ww, ← Real.sqrt_mul_self_eq_abs]
    exact Real.sqrt_le_sqrt (le_add_of_nonneg_left (Finset.sum_nonneg fun _ _ => mul_self_nonneg _))

end Hiop.Fgmres
