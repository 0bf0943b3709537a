import Verif.QN.Model

/-!
# C29: what the limited memory holds

The specification (`sOf`, `yOf`, `Accept`, `accepted`, `lastN`, `sigmaSpec`) is written in terms of
the points passed to `update`, with plain sums.
-/

set_option linter.unusedSectionVars false

namespace Hiop.QN

open Hiop.Vec Hiop.Kkt Matrix

variable {n mc m k : ℕ}

/-! ## Specification -/

/-- The step between two consecutive points. -/
def sOf (p c : Pt n mc m) : RVec ℝ n := fun i => c.x i - p.x i

/-- The change of the gradient of the Lagrangian, multipliers taken at the new point. -/
def yOf (p c : Pt n mc m) : RVec ℝ n := fun i =>
  (c.grad i + ∑ r, c.Jc r i * c.yc r + ∑ r, c.Jd r i * c.yd r)
    - (p.grad i + ∑ r, p.Jc r i * c.yc r + ∑ r, p.Jd r i * c.yd r)

/-- Euclidean norm. -/
noncomputable def norm2 (v : RVec ℝ n) : ℝ := Real.sqrt (∑ i, v i ^ 2)

/-- The acceptance test of a pair: the step is not tiny and the curvature is sufficiently positive. -/
def Accept (eps : ℝ) (s y : RVec ℝ n) : Prop :=
  (∃ i, 100 * eps ≤ |s i|) ∧ norm2 s * norm2 y * Real.sqrt eps < ∑ i, s i * y i

open Classical in
/-- The accepted pairs of the points following `p`, oldest first. -/
noncomputable def accepted (eps : ℝ) : Pt n mc m → List (Pt n mc m) → List (Pair n)
  | _, [] => []
  | p, c :: cs =>
    (if Accept eps (sOf p c) (yOf p c) then [(sOf p c, yOf p c)] else []) ++ accepted eps c cs

/-- The accepted pairs of a whole sequence of points. -/
noncomputable def acceptedAll (eps : ℝ) : List (Pt n mc m) → List (Pair n)
  | [] => []
  | p :: cs => accepted eps p cs

/-- The last `k` elements. -/
def lastN {α : Type*} (k : ℕ) (l : List α) : List α := l.drop (l.length - k)

/-- Documented multiple of the identity after a pair was accepted, restricted to `[1e-8, 1e8]`. -/
noncomputable def sigmaPair (strat : Strategy) (sigma0 : ℝ) (p : Pair n) : ℝ :=
  let c := ∑ i, p.1 i * p.2 i
  let s2 := ∑ i, p.1 i ^ 2
  let y2 := ∑ i, p.2 i ^ 2
  let v := match strat with
    | .sty => c / s2
    | .styInv => y2 / c
    | .snrmYnrm => Real.sqrt (s2 / y2)
    | .styAvg => (c / s2 + y2 / c) / 2
    | .const => sigma0
  max (min v (10 ^ 8)) (1 / 10 ^ 8)

/-- The multiple of the identity after a list of accepted pairs. -/
noncomputable def sigmaSpec (strat : Strategy) (sigma0 : ℝ) (acc : List (Pair n)) : ℝ :=
  match acc.getLast? with
  | none => sigma0
  | some p => sigmaPair strat sigma0 p

/-- The points passed to `update` in a sequence of calls. -/
def points (ops : List (Op n mc m)) : List (Pt n mc m) :=
  ops.filterMap fun
    | .update c => some c
    | _ => none

/-! ## Kernels -/

theorem dot_eq (x y : RVec ℝ n) : dot x y = x ⬝ᵥ y := dot_eq_sum x y

theorem dot_eq' (x y : RVec ℝ n) : dot x y = ∑ i, x i * y i := dot_eq_sum x y

theorem twonorm_eq (x : RVec ℝ n) : twonorm x = norm2 x := by
  unfold twonorm norm2
  rw [dot_eq']
  congr 1
  exact Finset.sum_congr rfl fun i _ => by ring

theorem twonorm_sq (x : RVec ℝ n) : twonorm x * twonorm x = ∑ i, x i ^ 2 := by
  rw [twonorm_eq, norm2, Real.mul_self_sqrt (Finset.sum_nonneg fun i _ => sq_nonneg _)]

theorem sNew_eq (p c : Pt n mc m) : axpy c.x (-1) p.x = sOf p c := by
  funext i; simp [axpy, sOf]; ring

theorem yNew_eq (p c : Pt n mc m) : yNew p c = yOf p c := by
  funext i
  simp only [yNew, yOf, transTimesVec, axpy, mulVec, dotProduct, transpose_apply]
  ring

theorem accept_iff {eps : ℝ} (he : 0 < eps) (s y : RVec ℝ n) :
    (infnorm s ≥ 100 * eps ∧ dot s y > twonorm s * twonorm y * Real.sqrt eps)
      ↔ Accept eps s y := by
  unfold Accept
  rw [twonorm_eq, twonorm_eq, dot_eq']
  refine and_congr_left fun _ => ⟨fun h => ?_, fun ⟨i, hi⟩ => hi.trans (infnorm_ge s i)⟩
  by_contra hc
  push Not at hc
  rcases infnorm_attained s with h0 | ⟨i, hi⟩
  · rw [h0.2] at h; linarith
  · have := hc i; rw [hi] at h; linarith

theorem sigma_eq (strat : Strategy) (sigma0 : ℝ) (p : Pair n) :
    safeguard (newSigma strat sigma0 (dot p.1 p.2) (twonorm p.1) (twonorm p.2))
      = sigmaPair strat sigma0 p := by
  unfold safeguard sigmaPair
  rw [min_comm]
  congr 2
  cases strat
  · simp only [newSigma, twonorm_sq, dot_eq']
  · simp only [newSigma, twonorm_sq, dot_eq']
  · simp only [newSigma]; rw [div_div, twonorm_sq, twonorm_sq]
  · simp only [newSigma, twonorm_sq, dot_eq']; ring
  · rfl

/-! ## The matrix `L` -/

theorem foldl_setRow (N : NMat ℝ) (l k : ℕ) (f : ℕ → ℝ) :
    (List.range k).foldl (fun N j => setAt N l j (f j)) N
      = fun i j => if i = l ∧ j < k then f j else N i j := by
  induction k with
  | zero => simp
  | succ k ih =>
    rw [List.range_succ, List.foldl_append, ih]
    funext i j
    simp only [List.foldl_cons, List.foldl_nil, setAt]
    by_cases h1 : i = l ∧ j = k
    · rw [if_pos h1, if_pos ⟨h1.1, by omega⟩, h1.2]
    · rw [if_neg h1]
      exact if_congr ⟨fun h => ⟨h.1, by omega⟩, fun h => ⟨h.1, by omega⟩⟩ rfl rfl

theorem foldl_setCol (N : NMat ℝ) (l k : ℕ) (f : ℕ → ℝ) :
    (List.range k).foldl (fun N i => setAt N i l (f i)) N
      = fun i j => if i < k ∧ j = l then f i else N i j := by
  induction k with
  | zero => simp
  | succ k ih =>
    rw [List.range_succ, List.foldl_append, ih]
    funext i j
    simp only [List.foldl_cons, List.foldl_nil, setAt]
    by_cases h1 : i = k ∧ j = l
    · rw [if_pos h1, if_pos ⟨by omega, h1.2⟩, h1.1]
    · rw [if_neg h1]
      exact if_congr ⟨fun h => ⟨by omega, h.2⟩, fun h => ⟨by omega, h.2⟩⟩ rfl rfl

theorem growL_apply (l : ℕ) (L : NMat ℝ) (yts : ℕ → ℝ) {i j : ℕ} (hi : i ≤ l) (hj : j ≤ l) :
    growL l L yts i j = if j = l then 0 else if i = l then yts j else L i j := by
  unfold growL
  rw [foldl_setCol, foldl_setRow]
  beta_reduce
  by_cases h1 : j = l
  · rw [if_pos ⟨by omega, h1⟩, if_pos h1]
  · rw [if_neg (fun h => h1 h.2), if_neg h1]
    by_cases h2 : i = l
    · rw [if_pos ⟨h2, by omega⟩, if_pos h2]
    · rw [if_neg (fun h => h2 h.1), if_neg h2, if_pos ⟨by omega, by omega⟩]

theorem shiftLRow_apply (L : NMat ℝ) (i : ℕ) :
    shiftLRow L i = fun i' j' => if i' = i ∧ j' < i then L (i + 1) (j' + 1) else L i' j' := by
  unfold shiftLRow
  suffices h : ∀ k, (List.range k).foldl (fun L j => setAt L i j (L (i + 1) (j + 1))) L
      = fun i' j' => if i' = i ∧ j' < k then L (i + 1) (j' + 1) else L i' j' from h i
  intro k
  induction k with
  | zero => simp
  | succ k ih =>
    rw [List.range_succ, List.foldl_append, ih]
    funext i' j'
    simp only [List.foldl_cons, List.foldl_nil, setAt]
    rw [if_neg (by omega : ¬ (i + 1 = i ∧ k + 1 < k))]
    by_cases h1 : i' = i ∧ j' = k
    · rw [if_pos h1, if_pos ⟨h1.1, by omega⟩, h1.2]
    · rw [if_neg h1]
      exact if_congr ⟨fun h => ⟨h.1, by omega⟩, fun h => ⟨h.1, by omega⟩⟩ rfl rfl

theorem foldl_shiftLRow (L : NMat ℝ) (k : ℕ) :
    (List.range' 1 k).foldl shiftLRow L
      = fun i j => if 1 ≤ i ∧ i ≤ k ∧ j < i then L (i + 1) (j + 1) else L i j := by
  induction k with
  | zero =>
    funext i j
    rw [if_neg (by omega)]; rfl
  | succ k ih =>
    rw [List.range'_concat, List.foldl_append, ih]
    simp only [List.foldl_cons, List.foldl_nil, shiftLRow_apply]
    funext i j
    simp only [one_mul]
    rw [if_neg (by omega : ¬ (1 ≤ 1 + k + 1 ∧ 1 + k + 1 ≤ k ∧ j + 1 < 1 + k + 1))]
    by_cases h1 : i = 1 + k ∧ j < 1 + k
    · rw [if_pos h1, if_pos ⟨by omega, by omega, by omega⟩, h1.1]
    · rw [if_neg h1]
      exact if_congr ⟨fun h => ⟨h.1, by omega, h.2.2⟩, fun h => ⟨h.1, by omega, h.2.2⟩⟩ rfl rfl

theorem updateL_apply (l : ℕ) (L : NMat ℝ) (yts : ℕ → ℝ) (i j : ℕ) :
    updateL (l + 1) L yts i j =
      if i = l ∧ j = l then 0 else if i = l ∧ j < l then yts (j + 1)
      else if 1 ≤ i ∧ i ≤ l - 1 ∧ j < i then L (i + 1) (j + 1) else L i j := by
  unfold updateL
  simp only [Nat.add_sub_cancel, setAt]
  rw [foldl_setRow, foldl_shiftLRow]

/-! ## The invariant -/

/-- `L` and `D` describe the pairs `ps`. -/
structure MemOk (q : St n mc m) (ps : List (Pair n)) : Prop where
  S : q.S = ps.map Prod.fst
  Y : q.Y = ps.map Prod.snd
  lDim : q.lDim = ps.length
  D : q.D = ps.map fun p => p.1 ⬝ᵥ p.2
  L : ∀ i < ps.length, ∀ j < ps.length, q.L i j = if j < i then sAt ps i ⬝ᵥ yAt ps j else 0

theorem getD_S {q : St n mc m} {ps : List (Pair n)} (h : MemOk q ps) (i : ℕ) :
    q.S.getD i 0 = sAt ps i := by
  rw [h.S, sAt]
  simp only [List.getD_eq_getElem?_getD, List.getElem?_map]
  cases ps[i]? <;> rfl

theorem getD_Y {q : St n mc m} {ps : List (Pair n)} (h : MemOk q ps) (i : ℕ) :
    q.Y.getD i 0 = yAt ps i := by
  rw [h.Y, yAt]
  simp only [List.getD_eq_getElem?_getD, List.getElem?_map]
  cases ps[i]? <;> rfl

theorem getD_D {q : St n mc m} {ps : List (Pair n)} (h : MemOk q ps) {i : ℕ} (hi : i < ps.length) :
    q.D.getD i 0 = sAt ps i ⬝ᵥ yAt ps i := by
  rw [h.D, sAt, yAt]
  simp [List.getD_eq_getElem?_getD, List.getElem?_map, List.getElem?_eq_getElem hi]

theorem shiftUp_set {α : Type*} (l : List α) (a : α) (h : l ≠ []) :
    (shiftUp l).set (l.length - 1) a = l.tail ++ [a] := by
  unfold shiftUp
  obtain ⟨b, t, rfl⟩ := List.exists_cons_of_ne_nil h
  split
  · rename_i hl
    have : t = [] := List.eq_nil_of_length_eq_zero (by simpa using hl)
    subst this; rfl
  · simp

theorem sAt_tail_append (ps : List (Pair n)) (p : Pair n) {i : ℕ} (h : i + 1 < ps.length) :
    sAt (ps.tail ++ [p]) i = sAt ps (i + 1) := by
  rw [sAt_append_lt (by simp; omega)]
  simp [sAt, List.getElem?_tail]
theorem yAt_tail_append (ps : List (Pair n)) (p : Pair n) {i : ℕ} (h : i + 1 < ps.length) :
    yAt (ps.tail ++ [p]) i = yAt ps (i + 1) := by
  rw [yAt_append_lt (by simp; omega)]
  simp [yAt, List.getElem?_tail]
theorem sAt_tail_last (ps : List (Pair n)) (p : Pair n) {l : ℕ} (h : ps.length = l + 1) :
    sAt (ps.tail ++ [p]) l = p.1 := by
  have : ps.tail.length = l := by simp [h]
  rw [← this, sAt_append_len]

/-- The memory part of `update`. -/
theorem store_ok {q : St n mc m} {ps : List (Pair n)} (h : MemOk q ps)
    (hl : q.lCurr = ps.length) (hm : ps.length ≤ q.lMax) (h0 : 0 < q.lMax) (p : Pair n) :
    ∃ q', store q p.1 p.2 (dot p.1 p.2) = some q' ∧
      MemOk q' (if ps.length < q.lMax then ps ++ [p] else ps.tail ++ [p]) ∧
      q'.lCurr = (if ps.length < q.lMax then ps ++ [p] else ps.tail ++ [p]).length ∧
      q'.lMax = q.lMax ∧ q'.strat = q.strat ∧ q'.sigma = q.sigma ∧ q'.sigma0 = q.sigma0 ∧
      q'.prev = q.prev ∧ q'.changed = q.changed ∧ q'.dhInv = q.dhInv ∧ q'.dx = q.dx := by
  have hY := getD_Y h
  unfold store
  by_cases hlt : ps.length < q.lMax
  · have hD : (q.D.length : ℤ) = q.lCurr := by rw [h.D, hl]; simp
    rw [if_pos (by omega), if_pos hD, if_pos hlt]
    refine ⟨_, rfl, ⟨?_, ?_, ?_, ?_, ?_⟩, ?_, rfl, rfl, rfl, rfl, rfl, rfl, rfl, rfl⟩
    · simp [h.S]
    · simp [h.Y]
    · simp [h.lDim]
    · simp [h.D, dot_eq]
    · intro i hi j hj
      simp only [List.length_append, List.length_singleton] at hi hj
      simp only [hY, h.lDim]
      rw [growL_apply _ _ _ (by omega) (by omega)]
      by_cases h1 : j = ps.length
      · rw [if_pos h1, if_neg (by omega)]
      · rw [if_neg h1]
        by_cases h2 : i = ps.length
        · rw [if_pos h2, if_pos (by omega), h2, sAt_append_len, yAt_append_lt (by omega), dot_eq,
            dotProduct_comm]
        · rw [if_neg h2, h.L i (by omega) j (by omega), sAt_append_lt (by omega),
            yAt_append_lt (by omega)]
    · simp [hl]
  · have heq : ps.length = q.lMax := by omega
    obtain ⟨l, hl1⟩ : ∃ l, ps.length = l + 1 := ⟨ps.length - 1, by omega⟩
    rw [if_neg (by omega), if_pos ⟨by rw [h.S]; simp; omega, by rw [h.Y]; simp; omega,
      by rw [hl, h.lDim]⟩, if_neg hlt]
    have hne : ps ≠ [] := by rintro rfl; simp at hl1
    refine ⟨_, rfl, ⟨?_, ?_, ?_, ?_, ?_⟩, ?_, rfl, rfl, rfl, rfl, rfl, rfl, rfl, rfl⟩
    · have e := shiftUp_set q.S p.1 (by rw [h.S]; simpa using hne)
      rw [h.S, List.length_map, heq, ← h.S] at e
      simp only [e]; rw [h.S]; simp
    · have e := shiftUp_set q.Y p.2 (by rw [h.Y]; simpa using hne)
      rw [h.Y, List.length_map, heq, ← h.Y] at e
      simp only [e]; rw [h.Y]; simp
    · simp [h.lDim, hl1]
    · simp [updateD, h.D, dot_eq]
    · intro i hi j hj
      simp only [List.length_append, List.length_singleton, List.length_tail] at hi hj
      simp only [hY, h.lDim, hl1]
      rw [updateL_apply]
      by_cases h1 : i = l ∧ j = l
      · rw [if_pos h1, if_neg (by omega)]
      · rw [if_neg h1]
        by_cases h2 : i = l ∧ j < l
        · rw [if_pos h2, if_pos (by omega), h2.1, sAt_tail_last ps p hl1,
            yAt_tail_append ps p (by omega), dot_eq, dotProduct_comm]
        · rw [if_neg h2]
          by_cases h3 : 1 ≤ i ∧ i ≤ l - 1 ∧ j < i
          · rw [if_pos h3, h.L _ (by omega) _ (by omega), if_pos (by omega), if_pos h3.2.2,
              sAt_tail_append ps p (by omega), yAt_tail_append ps p (by omega)]
          · rw [if_neg h3, h.L _ (by omega) _ (by omega), if_neg (by omega), if_neg (by omega)]
    · simp only [List.length_append, List.length_singleton, List.length_tail]; omega

theorem lastN_snoc {α : Type*} (k : ℕ) (l : List α) (a : α) (hk : 0 < k) :
    lastN k (l ++ [a]) = if (lastN k l).length < k then lastN k l ++ [a] else (lastN k l).tail ++ [a] := by
  unfold lastN
  simp only [List.length_drop, List.length_append, List.length_singleton]
  by_cases h : l.length < k
  · rw [if_pos (by omega)]
    rw [Nat.sub_eq_zero_of_le (by omega), Nat.sub_eq_zero_of_le (by omega)]; simp
  · rw [if_neg (by omega), List.tail_drop, List.drop_append_of_le_length (by omega)]
    congr 2
    omega

theorem length_lastN {α : Type*} (k : ℕ) (l : List α) : (lastN k l).length ≤ k := by
  unfold lastN; rw [List.length_drop]; omega

theorem accepted_snoc (eps : ℝ) (p : Pt n mc m) (cs : List (Pt n mc m)) (c : Pt n mc m) :
    accepted eps p (cs ++ [c])
      = accepted eps p cs ++ accepted eps ((p :: cs).getLast (by simp)) [c] := by
  induction cs generalizing p with
  | nil => simp [accepted]; rfl
  | cons d cs ih =>
    rw [List.cons_append, accepted, accepted, ih d, List.append_assoc]
    simp

/-- What the object holds after the points `cs`. -/
structure Inv (eps : ℝ) (lMax : ℕ) (strat : Strategy) (sigma0 : ℝ) (q : St n mc m)
    (cs : List (Pt n mc m)) : Prop where
  hlMax : q.lMax = lMax
  hstrat : q.strat = strat
  hsigma0 : q.sigma0 = sigma0
  mem : MemOk q (lastN lMax (acceptedAll eps cs))
  lCurr : q.lCurr = if cs = [] then -1 else ((lastN lMax (acceptedAll eps cs)).length : ℤ)
  sigma : q.sigma = sigmaSpec strat sigma0 (acceptedAll eps cs)
  prev : ∀ c, cs.getLast? = some c → q.prev = c

theorem inv_fresh (eps : ℝ) (lMax : ℕ) (strat : Strategy) (sigma0 : ℝ) (junk : St n mc m) :
    Inv eps lMax strat sigma0 (fresh lMax strat sigma0 junk) [] := by
  refine ⟨rfl, rfl, rfl, ⟨?_, ?_, ?_, ?_, ?_⟩, rfl, rfl, ?_⟩ <;>
    simp [fresh, acceptedAll, lastN]

theorem update_ok {eps : ℝ} (he : 0 < eps) {lMax : ℕ} {strat : Strategy} {sigma0 : ℝ}
    {q : St n mc m} {cs : List (Pt n mc m)} (h : Inv eps lMax strat sigma0 q cs) (c : Pt n mc m) :
    ∃ q', update eps q c = some q' ∧ Inv eps lMax strat sigma0 q' (cs ++ [c]) := by
  obtain ⟨h1, h2, h3, h4, h5, h6, h7⟩ := h
  rcases cs with _ | ⟨p, cs⟩
  · unfold update
    rw [if_pos rfl] at h5
    rw [if_neg (by omega)]
    refine ⟨_, rfl, h1, h2, h3, ?_, ?_, ?_, ?_⟩
    · exact ⟨h4.S, h4.Y, h4.lDim, h4.D, h4.L⟩
    · simp [h5, acceptedAll, accepted, lastN]
    · exact h6
    · simp
  · rw [if_neg (by simp)] at h5
    set acc := acceptedAll eps (p :: cs) with hacc
    set lst := (p :: cs).getLast (by simp) with hlst
    have hprev : q.prev = lst := h7 lst (by rw [List.getLast?_eq_getLast_of_ne_nil])
    have hnew : acceptedAll eps (p :: cs ++ [c]) = acc ++ accepted eps lst [c] := by
      rw [hacc, acceptedAll, List.cons_append, acceptedAll, accepted_snoc]
    have hcount : q.lCurr ≥ 0 := by omega
    have hlast : ∀ d, (p :: cs ++ [c]).getLast? = some d → c = d := by
      intro d hd
      rw [List.getLast?_append_of_ne_nil _ (by simp)] at hd
      simpa using hd
    by_cases hA : Accept eps (sOf lst c) (yOf lst c)
    · have hA' := (accept_iff he _ _).mpr hA
      set pr : Pair n := (sOf lst c, yOf lst c) with hpr
      have hnew' : acceptedAll eps (p :: cs ++ [c]) = acc ++ [pr] := by
        rw [hnew, accepted, if_pos hA, accepted]; rfl
      unfold update
      rw [if_pos hcount, sNew_eq, yNew_eq, hprev]
      rw [if_pos hA'.1]
      unfold tryPair
      simp only
      rw [if_pos hA'.2]
      by_cases hL : q.lMax > 0
      · rw [if_pos hL]
        obtain ⟨q', e, m1, m2, m3, m4, m5, m6, m7, -⟩ :=
          store_ok h4 h5 (by rw [h1]; exact length_lastN _ _) hL pr
        rw [hpr] at e
        simp only at e
        rw [e]
        rw [h1, ← lastN_snoc lMax acc pr (by omega), ← hnew'] at m1 m2
        refine ⟨_, rfl, m3.trans h1, m4.trans h2, m6.trans h3,
          ⟨m1.S, m1.Y, m1.lDim, m1.D, m1.L⟩, ?_, ?_, ?_⟩
        · rw [if_neg (by simp)]; exact m2
        · simp only [m4, m6, h2, h3]
          rw [sigma_eq strat sigma0 pr, hnew', sigmaSpec]
          simp
        · intro d hd; simpa using hlast d hd
      · have h0 : lMax = 0 := by omega
        rw [if_neg hL]
        have hz : ∀ l : List (Pair n), lastN lMax l = [] := fun l => by
          rw [h0, lastN]; simp
        refine ⟨_, rfl, h1, h2, h3, ?_, ?_, ?_, ?_⟩
        · rw [hz] at h4 ⊢
          exact ⟨h4.S, h4.Y, h4.lDim, h4.D, h4.L⟩
        · rw [if_neg (by simp), hz]
          rw [hz] at h5; exact h5
        · simp only [h2, h3]
          rw [sigma_eq strat sigma0 pr, hnew', sigmaSpec]
          simp
        · intro d hd; simpa using hlast d hd
    · have hnew' : acceptedAll eps (p :: cs ++ [c]) = acc := by
        rw [hnew, accepted, if_neg hA, accepted]; simp
      have hskip : update eps q c = some { q with prev := c } := by
        unfold update
        rw [if_pos hcount, sNew_eq, yNew_eq, hprev]
        by_cases hs : infnorm (sOf lst c) ≥ 100 * eps
        · rw [if_pos hs]
          unfold tryPair
          simp only
          rw [if_neg fun hc => hA ((accept_iff he _ _).mp ⟨hs, hc⟩)]
          rfl
        · rw [if_neg hs]; rfl
      rw [hskip]
      refine ⟨_, rfl, h1, h2, h3, ?_, ?_, ?_, ?_⟩
      · rw [hnew']; exact ⟨h4.S, h4.Y, h4.lDim, h4.D, h4.L⟩
      · rw [hnew', if_neg (by simp)]; exact h5
      · rw [hnew']; exact h6
      · intro d hd; simpa using hlast d hd

/-- Fields changed by solves: none of the memory. -/
structure SameMem (q q' : St n mc m) : Prop where
  lMax : q'.lMax = q.lMax
  lCurr : q'.lCurr = q.lCurr
  strat : q'.strat = q.strat
  sigma : q'.sigma = q.sigma
  sigma0 : q'.sigma0 = q.sigma0
  S : q'.S = q.S
  Y : q'.Y = q.Y
  L : q'.L = q.L
  lDim : q'.lDim = q.lDim
  D : q'.D = q.D
  prev : q'.prev = q.prev

theorem SameMem.refl (q : St n mc m) : SameMem q q := ⟨rfl, rfl, rfl, rfl, rfl, rfl, rfl, rfl, rfl, rfl, rfl⟩

theorem MemOk.same {q q' : St n mc m} {ps : List (Pair n)} (h : MemOk q ps) (s : SameMem q q') :
    MemOk q' ps :=
  ⟨s.S.trans h.S, s.Y.trans h.Y, s.lDim.trans h.lDim, s.D.trans h.D, fun i hi j hj => by
    rw [s.L]; exact h.L i hi j hj⟩

theorem Inv.same {eps : ℝ} {lMax : ℕ} {strat : Strategy} {sigma0 : ℝ} {q q' : St n mc m}
    {cs : List (Pt n mc m)} (h : Inv eps lMax strat sigma0 q cs) (s : SameMem q q') :
    Inv eps lMax strat sigma0 q' cs :=
  ⟨s.lMax.trans h.hlMax, s.strat.trans h.hstrat, s.sigma0.trans h.hsigma0, h.mem.same s,
    s.lCurr.trans h.lCurr, s.sigma.trans h.sigma, fun c hc => s.prev.trans (h.prev c hc)⟩

theorem rep_same {q q' : St n mc m} (h : rep q = some q') : SameMem q q' := by
  unfold rep at h
  simp only at h
  split at h
  · simp only [Option.some.injEq] at h
    subst h; exact ⟨rfl, rfl, rfl, rfl, rfl, rfl, rfl, rfl, rfl, rfl, rfl⟩
  · exact absurd h (by simp)

theorem refresh_same {q q' : St n mc m} (h : refresh q = some q') : SameMem q q' := by
  unfold refresh at h
  split at h
  · exact rep_same h
  · simp only [Option.some.injEq] at h; subst h; exact SameMem.refl _

theorem solve_refresh {la : Lapack} {q q' : St n mc m} {rhs x : RVec ℝ n}
    (h : solve la q rhs = some (q', x)) : refresh q = some q' := by
  unfold solve at h
  cases hr : refresh q with
  | none => rw [hr] at h; simp at h
  | some q1 =>
    rw [hr] at h
    simp only [Option.bind_eq_bind, Option.bind_some] at h
    obtain ⟨z, -, h⟩ := Option.bind_eq_some_iff.mp h
    simp only [Option.some.injEq, Prod.mk.injEq] at h
    rw [h.1]

theorem inverse_refresh {la : Lapack} {q q' : St n mc m} {k : ℕ} {beta alpha : ℝ} {W W' : NMat ℝ}
    {X : ℕ → RVec ℝ n} (h : symMatTimesInverse la q k beta W alpha X = some (q', W')) :
    refresh q = some q' := by
  unfold symMatTimesInverse at h
  cases hr : refresh q with
  | none => rw [hr] at h; simp at h
  | some q1 =>
    rw [hr] at h
    simp only [Option.bind_eq_bind, Option.bind_some] at h
    obtain ⟨z, -, h⟩ := Option.bind_eq_some_iff.mp h
    simp only [Option.some.injEq, Prod.mk.injEq] at h
    rw [h.1]

theorem run_inv {la : Lapack} {eps : ℝ} (he : 0 < eps) {lMax : ℕ} {strat : Strategy} {sigma0 : ℝ}
    (ops : List (Op n mc m)) {q q' : St n mc m} {cs : List (Pt n mc m)}
    (h : Inv eps lMax strat sigma0 q cs) (hr : run la eps q ops = some q') :
    Inv eps lMax strat sigma0 q' (cs ++ points ops) := by
  induction ops generalizing q cs with
  | nil =>
    simp only [run, List.foldlM_nil] at hr
    obtain rfl : q = q' := by simpa using hr
    simpa [points] using h
  | cons o ops ih =>
    rw [run, List.foldlM_cons] at hr
    obtain ⟨q1, e1, e2⟩ := Option.bind_eq_some_iff.mp hr
    cases o with
    | update c =>
      obtain ⟨q2, e3, i3⟩ := update_ok he h c
      have : q1 = q2 := by
        simp only [step] at e1; rw [e3] at e1; simpa using e1.symm
      subst this
      have := ih i3 e2
      simpa [points] using this
    | diag dx =>
      simp only [step, Option.some.injEq] at e1
      have s : SameMem q q1 := by
        rw [← e1]; exact ⟨rfl, rfl, rfl, rfl, rfl, rfl, rfl, rfl, rfl, rfl, rfl⟩
      have := ih (h.same s) e2
      simpa [points] using this
    | solve rhs =>
      simp only [step, Option.map_eq_some_iff] at e1
      obtain ⟨⟨q2, x⟩, e3, rfl⟩ := e1
      have := ih (h.same (refresh_same (solve_refresh e3))) e2
      simpa [points] using this
    | inverse k beta W alpha X =>
      simp only [step, Option.map_eq_some_iff] at e1
      obtain ⟨⟨q2, x⟩, e3, rfl⟩ := e1
      have := ih (h.same (refresh_same (inverse_refresh e3))) e2
      simpa [points] using this

/-! ## C29 -/

/-- **C29, memory contents.** After any sequence of calls that did not abort, the object holds
exactly the most recent `lMax` accepted pairs of the points it was updated with, oldest first; the
auxiliary matrices are the strictly lower triangle and the diagonal of their products. -/
theorem C29_memory (la : Lapack) {eps : ℝ} (he : 0 < eps) (lMax : ℕ) (strat : Strategy)
    (sigma0 : ℝ) (junk : St n mc m) (ops : List (Op n mc m)) (q : St n mc m)
    (hr : run la eps (fresh lMax strat sigma0 junk) ops = some q) :
    q.S.zip q.Y = lastN lMax (acceptedAll eps (points ops)) ∧
    q.S.length = q.Y.length ∧ q.S.length ≤ lMax ∧
    (points ops ≠ [] → q.lCurr = q.S.length) ∧
    (∀ i < q.S.length, ∀ j < q.S.length, q.L i j =
      if j < i then ∑ t, (q.S.getD i 0) t * (q.Y.getD j 0) t else 0) ∧
    q.D = List.zipWith (fun s y => ∑ t, s t * y t) q.S q.Y := by
  have h := run_inv he ops (inv_fresh eps lMax strat sigma0 junk) hr
  rw [List.nil_append] at h
  have hS : q.S.length = (lastN lMax (acceptedAll eps (points ops))).length := by rw [h.mem.S]; simp
  refine ⟨?_, ?_, ?_, ?_, ?_, ?_⟩
  · rw [h.mem.S, h.mem.Y, List.zip_map']
    simp
  · rw [h.mem.S, h.mem.Y]; simp
  · rw [hS]; exact length_lastN _ _
  · intro hne; rw [h.lCurr, if_neg hne, hS]
  · intro i hi j hj
    rw [h.mem.L i (by omega) j (by omega), getD_S h.mem, getD_Y h.mem]
    rfl
  · rw [h.mem.D, h.mem.S, h.mem.Y, List.zipWith_map, List.zipWith_self]
    rfl

theorem accepted_pos {eps : ℝ} (p : Pt n mc m) (cs : List (Pt n mc m)) :
    ∀ pr ∈ accepted eps p cs, Accept eps pr.1 pr.2 := by
  induction cs generalizing p with
  | nil => simp [accepted]
  | cons c cs ih =>
    intro pr hpr
    rw [accepted, List.mem_append] at hpr
    rcases hpr with hpr | hpr
    · split at hpr
      · rename_i hA
        rw [List.mem_singleton] at hpr
        subst hpr; exact hA
      · simp at hpr
    · exact ih c pr hpr

theorem acceptedAll_pos {eps : ℝ} (cs : List (Pt n mc m)) :
    ∀ pr ∈ acceptedAll eps cs, Accept eps pr.1 pr.2 := by
  cases cs with
  | nil => simp [acceptedAll]
  | cons p cs => exact accepted_pos p cs

theorem Accept.pos {eps : ℝ} {s y : RVec ℝ n} (h : Accept eps s y) : 0 < ∑ i, s i * y i :=
  lt_of_le_of_lt (mul_nonneg (mul_nonneg (Real.sqrt_nonneg _) (Real.sqrt_nonneg _))
    (Real.sqrt_nonneg _)) h.2

/-- **C29, positive curvature.** Every stored pair passed the acceptance test; in particular its
curvature is positive. -/
theorem C29_curvature (la : Lapack) {eps : ℝ} (he : 0 < eps) (lMax : ℕ) (strat : Strategy)
    (sigma0 : ℝ) (junk : St n mc m) (ops : List (Op n mc m)) (q : St n mc m)
    (hr : run la eps (fresh lMax strat sigma0 junk) ops = some q) :
    ∀ p ∈ q.S.zip q.Y, Accept eps p.1 p.2 ∧ 0 < ∑ i, p.1 i * p.2 i := by
  intro p hp
  rw [(C29_memory la he lMax strat sigma0 junk ops q hr).1] at hp
  have := acceptedAll_pos (points ops) p (List.mem_of_mem_drop hp)
  exact ⟨this, this.pos⟩

/-- **C29, scaling.** The multiple of the identity is the initial one until a pair is accepted and
afterwards the value of the selected formula at the newest accepted pair, kept in `[1e-8, 1e8]`;
hence it is positive when the initial one is. -/
theorem C29_sigma (la : Lapack) {eps : ℝ} (he : 0 < eps) (lMax : ℕ) (strat : Strategy)
    (sigma0 : ℝ) (junk : St n mc m) (ops : List (Op n mc m)) (q : St n mc m)
    (hr : run la eps (fresh lMax strat sigma0 junk) ops = some q) :
    q.sigma = sigmaSpec strat sigma0 (acceptedAll eps (points ops)) ∧
    (acceptedAll eps (points ops) ≠ [] → 1 / 10 ^ 8 ≤ q.sigma ∧ q.sigma ≤ 10 ^ 8) ∧
    (0 < sigma0 → 0 < q.sigma) := by
  have h := run_inv he ops (inv_fresh eps lMax strat sigma0 junk) hr
  rw [List.nil_append] at h
  have hb : acceptedAll eps (points ops) ≠ [] → 1 / 10 ^ 8 ≤ q.sigma ∧ q.sigma ≤ 10 ^ 8 := by
    intro hne
    rw [h.sigma, sigmaSpec, List.getLast?_eq_getLast_of_ne_nil hne]
    simp only [sigmaPair]
    exact ⟨le_max_right _ _, max_le (min_le_right _ _) (by norm_num)⟩
  refine ⟨h.sigma, hb, fun h0 => ?_⟩
  by_cases hne : acceptedAll eps (points ops) = []
  · rw [h.sigma, hne]; exact h0
  · have := (hb hne).1
    linarith [show (0 : ℝ) < 1 / 10 ^ 8 by norm_num]

/-- **C29, updates never abort.** In every state reached without an abort, an update completes. -/
theorem C29_total (la : Lapack) {eps : ℝ} (he : 0 < eps) (lMax : ℕ) (strat : Strategy)
    (sigma0 : ℝ) (junk : St n mc m) (ops : List (Op n mc m)) (q : St n mc m)
    (hr : run la eps (fresh lMax strat sigma0 junk) ops = some q) (c : Pt n mc m) :
    (update eps q c).isSome := by
  have h := run_inv he ops (inv_fresh eps lMax strat sigma0 junk) hr
  obtain ⟨q', e, -⟩ := update_ok he h c
  rw [e]; rfl

theorem run_updates {la : Lapack} {eps : ℝ} (he : 0 < eps) {lMax : ℕ} {strat : Strategy}
    {sigma0 : ℝ} (pts : List (Pt n mc m)) {q : St n mc m} {cs : List (Pt n mc m)}
    (h : Inv eps lMax strat sigma0 q cs) : (run la eps q (pts.map .update)).isSome := by
  induction pts generalizing q cs with
  | nil => rfl
  | cons c pts ih =>
    obtain ⟨q', e, i⟩ := update_ok he h c
    rw [List.map_cons, run, List.foldlM_cons]
    simp only [step, e]
    exact ih i

/-! ## Instance -/

/-- Points of `f(x) = x²` in one variable without constraints. -/
def exPt (t : ℝ) : Pt 1 0 0 :=
  ⟨fun _ => t, fun i => i.elim0, fun i => i.elim0, fun _ => 2 * t, fun i => i.elim0,
    fun i => i.elim0⟩

theorem norm2_one (a : ℝ) : norm2 (fun _ : Fin 1 => a) = |a| := by
  rw [norm2]; simp [Real.sqrt_sq_eq_abs]

theorem exPt_pair (t u : ℝ) : sOf (exPt t) (exPt u) = (fun _ => u - t) ∧
    yOf (exPt t) (exPt u) = fun _ => 2 * (u - t) := by
  constructor
  · rfl
  · funext i; simp [yOf, exPt]; ring

theorem exPt_accept {t u : ℝ} (h : 1 ≤ u - t) :
    Accept (1 / 10000) (sOf (exPt t) (exPt u)) (yOf (exPt t) (exPt u)) := by
  rw [(exPt_pair t u).1, (exPt_pair t u).2]
  refine ⟨⟨0, ?_⟩, ?_⟩
  · rw [abs_of_pos (by linarith)]; linarith
  · rw [norm2_one, norm2_one, abs_of_pos (by linarith), abs_of_pos (by linarith),
      show (1 / 10000 : ℝ) = (1 / 100) ^ 2 by norm_num, Real.sqrt_sq (by norm_num)]
    simp only [Finset.univ_unique, Finset.sum_singleton]
    nlinarith

/-- Three points with memory 1: two pairs are accepted, the newer one is kept. -/
example (la : Lapack) (junk : St 1 0 0) : ∃ q,
    run la (1 / 10000) (fresh 1 .sty 1 junk)
      ([exPt 0, exPt 1, exPt 3].map .update) = some q ∧
    q.S.zip q.Y = [(fun _ => 2, fun _ => 4)] ∧ q.sigma = 2 := by
  have he : (0 : ℝ) < 1 / 10000 := by norm_num
  have hs := run_updates (la := la) he [exPt 0, exPt 1, exPt 3] (inv_fresh (1 / 10000) 1 .sty 1 junk)
  obtain ⟨q, hq⟩ := Option.isSome_iff_exists.mp hs
  have hp : points ([exPt 0, exPt 1, exPt 3].map Op.update) = [exPt 0, exPt 1, exPt 3] := rfl
  have hacc : acceptedAll (1 / 10000) [exPt 0, exPt 1, exPt 3]
      = [(fun _ => 1, fun _ => 2), (fun _ => 2, fun _ => 4)] := by
    rw [acceptedAll, accepted, accepted, accepted, if_pos (exPt_accept (by norm_num)),
      if_pos (exPt_accept (by norm_num)), (exPt_pair _ _).1, (exPt_pair _ _).1, (exPt_pair _ _).2,
      (exPt_pair _ _).2]
    norm_num
  refine ⟨q, hq, ?_, ?_⟩
  · rw [(C29_memory la he _ _ _ _ _ _ hq).1, hp, hacc]; rfl
  · rw [(C29_sigma la he _ _ _ _ _ _ hq).1, hp, hacc]
    norm_num [sigmaSpec, sigmaPair]

end Hiop.QN
