import Verif.Raja.Lemmas

/-!
# C62: the RAJA kernels of triplet matrices compute what the host kernels compute, on every schedule

`X = Out.one a` says: under every schedule the loop ends, no assertion fails, and the result is `a`.
The host functions are those of `Verif.Sparse.Model`, specified by C27.
-/

set_option linter.unusedSectionVars false
set_option linter.unusedSimpArgs false

namespace Hiop.Raja

open Hiop.Sparse Hiop.Vec Function

variable {K : Type} [Field K] [LinearOrder K] [IsStrictOrderedRing K] {p q s : ℕ}

/-! ## Specification -/

/-- A vector of size `p` written over the first `p` elements of an array. -/
def putBack (r : RVec K p) (y : ℕ → K) : ℕ → K := fun i => if h : i < p then r ⟨i, h⟩ else y i

/-! ## Products with vectors -/

theorem scaleLoop_one (n : ℕ) (beta : K) (y : ℕ → K) :
    scaleLoop n beta y = Out.one fun i => if i < n then y i * beta else y i := by
  refine forallR_upd _ (fun i => [(i, fun v => v * beta)]) (fun i _ => rfl) (fun i _ => by simp) ?_
    ?_ ?_
  · intro i j _ _ hij u hu w hw
    rw [List.mem_singleton] at hu hw
    subst hu hw
    exact hij
  · intro i hi u hu
    rw [List.mem_singleton] at hu
    subst hu
    simp [hi]
  · intro l hl
    have : ¬ l < n := fun h => hl l h _ (List.mem_singleton.2 rfl) rfl
    simp [this]

theorem row_sum (es : List (Ent K)) (h : InRange p q es) (x : ℕ → K) (alpha : K) (i : ℕ) :
    (es.map fun e => (if i = e.r then alpha * x e.c * e.v else 0) + 0).sum
      = alpha * ∑ j : Fin q, entry es i j * x j := by
  induction es with
  | nil => simp
  | cons e es ih =>
    obtain ⟨⟨h1, h2⟩, h3⟩ := inRange_cons h
    rw [List.map_cons, List.sum_cons, ih h3]
    simp only [entry_cons, add_mul, Finset.sum_add_distrib]
    rw [sum_single (fun j : Fin q => x j) h2, mul_add]
    congr 1
    by_cases hi : e.r = i
    · simp [hi]; ring
    · simp [hi, Ne.symm hi]

theorem row_sum_out (es : List (Ent K)) (h : InRange p q es) (x : ℕ → K) (alpha : K) (i : ℕ)
    (hi : ¬ i < p) : (es.map fun e => (if i = e.r then alpha * x e.c * e.v else 0) + 0).sum = 0 := by
  induction es with
  | nil => simp
  | cons e es ih =>
    obtain ⟨⟨h1, h2⟩, h3⟩ := inRange_cons h
    rw [List.map_cons, List.sum_cons, ih h3, if_neg (by omega)]
    simp

theorem exists_bad {es : List (Ent K)} (h : ¬ InRange p q es) :
    ∃ i, ∃ hi : i < es.length, ¬ (es[i].r < p ∧ es[i].c < q) := by
  unfold InRange at h
  push Not at h
  obtain ⟨e, he, hb⟩ := h
  obtain ⟨i, hi, rfl⟩ := List.mem_iff_getElem.1 he
  exact ⟨i, hi, fun hc => absurd (hb hc.1) (by omega)⟩

/-- **C62, product.** The parallel product is the host product on every schedule; where the host
stops at an index assertion, so does the parallel loop. -/
theorem C62_timesVec (es : List (Ent K)) (beta alpha : K) (y x : ℕ → K) :
    match timesVec es beta (fun i : Fin p => y i) alpha (fun j : Fin q => x j) with
    | some r => timesVecR p q es beta y alpha x = Out.one (putBack r y)
    | none => none ∈ timesVecR p q es beta y alpha x := by
  obtain ⟨hin, hout⟩ := C27_timesVec es beta alpha (fun i : Fin p => y i) (fun j : Fin q => x j)
  by_cases h : InRange p q es
  · rw [hin h]
    simp only
    unfold timesVecR
    rw [scaleLoop_one, Out.one_andThen,
      forallR_addList es _ _ (fun e l => (if l = e.r then alpha * x e.c * e.v else 0) + 0)]
    · congr 1
      funext i
      unfold putBack
      by_cases hi : i < p
      · rw [dif_pos hi, if_pos hi, row_sum es h, mul_comm]
      · rw [dif_neg hi, if_neg hi, row_sum_out es h x alpha i hi, add_zero]
    · intro i hi
      have hr := h es[i] (List.getElem_mem hi)
      rw [nth_lt hi, assertP, if_pos hr.1, assertP, if_pos hr.2]
      exact Adds.add _ _ Adds.ret
  · rw [hout h]
    simp only
    unfold timesVecR
    rw [scaleLoop_one, Out.one_andThen]
    obtain ⟨i, hi, hb⟩ := exists_bad h
    refine forallR_abort hi ?_
    rw [nth_lt hi, assertP]
    by_cases h1 : es[i].r < p
    · rw [if_pos h1, assertP, if_neg fun h2 => hb ⟨h1, h2⟩]
    · rw [if_neg h1]

/-- **C62, transposed product.** -/
theorem C62_transTimesVec (es : List (Ent K)) (beta alpha : K) (y x : ℕ → K) :
    match transTimesVec es beta (fun i : Fin q => y i) alpha (fun j : Fin p => x j) with
    | some r => transTimesVecR p q es beta y alpha x = Out.one (putBack r y)
    | none => none ∈ transTimesVecR p q es beta y alpha x := by
  obtain ⟨hin, hout⟩ :=
    C27_transTimesVec es beta alpha (fun i : Fin q => y i) (fun j : Fin p => x j)
  by_cases h : InRange p q es
  · have hf : InRange q p (Sparse.flip es) := by
      unfold InRange Sparse.flip
      simp only [List.mem_map, forall_exists_index, and_imp, forall_apply_eq_imp_iff₂]
      exact fun e he => ⟨(h e he).2, (h e he).1⟩
    rw [hin h]
    simp only
    unfold transTimesVecR
    rw [scaleLoop_one, Out.one_andThen,
      forallR_addList es _ _ (fun e l => (if l = e.c then alpha * x e.r * e.v else 0) + 0)]
    · congr 1
      funext i
      unfold putBack
      have e1 : (es.map fun e => (if i = e.c then alpha * x e.r * e.v else 0) + 0).sum
          = ((Sparse.flip es).map fun e => (if i = e.r then alpha * x e.c * e.v else 0) + 0).sum := by
        unfold Sparse.flip
        rw [List.map_map]
        rfl
      by_cases hi : i < q
      · rw [dif_pos hi, if_pos hi, e1, row_sum _ hf, mul_comm]
        simp only [entry_flip]
      · rw [dif_neg hi, if_neg hi, e1, row_sum_out _ hf x alpha i hi, add_zero]
    · intro i hi
      have hr := h es[i] (List.getElem_mem hi)
      rw [nth_lt hi, assertP, if_pos hr.1, assertP, if_pos hr.2]
      exact Adds.add _ _ Adds.ret
  · rw [hout h]
    simp only
    unfold transTimesVecR
    rw [scaleLoop_one, Out.one_andThen]
    obtain ⟨i, hi, hb⟩ := exists_bad h
    refine forallR_abort hi ?_
    rw [nth_lt hi, assertP]
    by_cases h1 : es[i].r < p
    · rw [if_pos h1, assertP, if_neg fun h2 => hb ⟨h1, h2⟩]
    · rw [if_neg h1]

/-- Contribution of a triplet to the symmetric product. -/
def symPart (alpha : K) (x : ℕ → K) (e : Ent K) (l : ℕ) : K :=
  (if l = e.r then alpha * x e.c * e.v else 0) +
    if e.r ≠ e.c then (if l = e.c then alpha * x e.r * e.v else 0) + 0 else 0

theorem sym_sum (es : List (Ent K)) (h : InRange p p es) (x : ℕ → K) (alpha : K) (i : ℕ) :
    (es.map fun e => symPart alpha x e i).sum = alpha * ∑ j : Fin p, symEntry es i j * x j := by
  induction es with
  | nil => simp
  | cons e es ih =>
    obtain ⟨⟨h1, h2⟩, h3⟩ := inRange_cons h
    rw [List.map_cons, List.sum_cons, ih h3]
    simp only [symEntry_cons, add_mul, Finset.sum_add_distrib]
    have s1 := sum_single (fun j : Fin p => x j) h2 e.v (e.r = i)
    have s2 := sum_single (fun j : Fin p => x j) h1 e.v (e.r ≠ e.c ∧ e.c = i)
    simp only [and_assoc] at s2
    rw [s1, s2, mul_add, mul_add]
    congr 1
    unfold symPart
    by_cases hi : e.r = i <;> by_cases hd : e.r = e.c <;> by_cases hc : e.c = i
    all_goals
      first
      | (exfalso; omega)
      | (simp [hi, hd, hc, eq_comm (a := i)] <;> ring_nf)

theorem sym_sum_out (es : List (Ent K)) (h : InRange p p es) (x : ℕ → K) (alpha : K) (i : ℕ)
    (hi : ¬ i < p) : (es.map fun e => symPart alpha x e i).sum = 0 := by
  induction es with
  | nil => simp
  | cons e es ih =>
    obtain ⟨⟨h1, h2⟩, h3⟩ := inRange_cons h
    rw [List.map_cons, List.sum_cons, ih h3]
    unfold symPart
    rw [if_neg (by omega : ¬ i = e.r), if_neg (by omega : ¬ i = e.c)]
    simp

/-- **C62, symmetric product.** -/
theorem C62_symTimesVec (es : List (Ent K)) (beta alpha : K) (y x : ℕ → K) :
    (∀ r, InRange p p es →
      symTimesVec es beta (fun i : Fin p => y i) alpha (fun j : Fin p => x j) = some r →
      symTimesVecR p es beta y alpha x = Out.one (putBack r y)) ∧
    (¬ InRange p p es → none ∈ symTimesVecR p es beta y alpha x) := by
  refine ⟨fun r h hr => ?_, fun h => ?_⟩
  · rw [C27_symTimesVec es beta alpha _ _ h, Option.some.injEq] at hr
    subst hr
    unfold symTimesVecR
    rw [scaleLoop_one, Out.one_andThen, forallR_addList es _ _ (symPart alpha x)]
    · congr 1
      funext i
      unfold putBack
      by_cases hi : i < p
      · rw [dif_pos hi, if_pos hi, sym_sum es h, mul_comm]
      · rw [dif_neg hi, if_neg hi, sym_sum_out es h x alpha i hi, add_zero]
    · intro i hi
      have hr := h es[i] (List.getElem_mem hi)
      rw [nth_lt hi, assertP, if_pos hr.1, assertP, if_pos hr.2]
      refine Adds.add _ _ ?_
      by_cases hd : es[i].r ≠ es[i].c
      · simp only [if_pos hd]
        exact Adds.add _ _ Adds.ret
      · simp only [if_neg hd]
        exact Adds.ret
  · unfold symTimesVecR
    rw [scaleLoop_one, Out.one_andThen]
    obtain ⟨i, hi, hb⟩ := exists_bad h
    refine forallR_abort hi ?_
    rw [nth_lt hi, assertP]
    by_cases h1 : es[i].r < p
    · rw [if_pos h1, assertP, if_neg fun h2 => hb ⟨h1, h2⟩]
    · rw [if_neg h1]

/-! ## Dense destinations -/

/-- A host result as outcome of a parallel function. -/
def likeHost {α β : Type} (f : α → β) : Option α → Out β
  | some a => Out.one (f a)
  | none => Out.abort

theorem loopP_upd {L α : Type} (l : List α) (loc : α → L) (f : α → K → K) :
    loopP l (fun a (k : Prog L fun _ => K) => Prog.rd (loc a) fun v => Prog.wr (loc a) (f a v) k)
      = updP (l.map fun a => (loc a, f a)) := by
  induction l with
  | nil => rfl
  | cons a l ih =>
    unfold loopP at ih ⊢
    rw [List.foldr_cons, ih]
    rfl

/-- **C62, product of two sparse matrices.** -/
theorem C62_timesMatTrans (M1 M2 : List (Ent K)) (beta alpha : K) (W : ℕ → ℕ → K) :
    timesMatTransR p s M1 M2 beta (uncurry W) alpha
      = likeHost uncurry (timesMatTrans p s M1 M2 beta W alpha) := by
  unfold timesMatTransR timesMatTrans
  by_cases h1 : rowStartsOk p M1 = true
  · by_cases h2 : rowStartsOk s M2 = true
    · rw [Out.check_pos h1, Out.check_pos h2, if_pos (by simp [h1, h2])]
      refine forallR_upd _ (fun i => (List.range s).map fun j => ((i, j), fun w =>
        beta * w + alpha * walk (fun _ a b => a * b) 0 (rowSlice M1 i) (rowSlice M2 j)))
        (fun i _ => loopP_upd _ _ _) ?_ ?_ ?_ ?_
      · intro i _
        rw [List.map_map]
        exact List.Nodup.map (fun a b h => by simpa using h) List.nodup_range
      · intro i j _ _ hij u hu w hw
        simp only [List.mem_map] at hu hw
        obtain ⟨a, _, rfl⟩ := hu
        obtain ⟨b, _, rfl⟩ := hw
        simp [hij]
      · intro i hi u hu
        simp only [List.mem_map, List.mem_range] at hu
        obtain ⟨a, ha, rfl⟩ := hu
        simp [uncurry, hi, ha]
      · rintro ⟨a, b⟩ hl
        have : ¬ (a < p ∧ b < s) := fun h => hl a h.1 _
          (List.mem_map.2 ⟨b, List.mem_range.2 h.2, rfl⟩) rfl
        simp [uncurry, this]
    · rw [Out.check_pos h1, Out.check_neg h2, if_neg (by simp [h2])]
      rfl
  · rw [Out.check_neg h1, if_neg (by simp [h1])]
    rfl

/-- **C62, weighted product added to a diagonal block.** -/
theorem C62_addMDinvMt (es : List (Ent K)) (st : ℕ) (alpha : K) (D : ℕ → K) (W : ℕ → ℕ → K) :
    addMDinvMtR p es st alpha D (uncurry W) = likeHost uncurry (addMDinvMt p es st alpha D W) := by
  unfold addMDinvMtR addMDinvMt
  by_cases h1 : rowStartsOk p es = true
  · rw [Out.check_pos h1, if_pos h1]
    refine forallR_upd _ (fun i =>
      ((i + st, i + st), fun w => w +
        alpha * (rowSlice es i).foldl (fun acc e => acc + e.v / D e.c * e.v) 0) ::
      (List.range' (i + 1) (p - (i + 1))).map fun j => ((i + st, j + st), fun w =>
        w + alpha * walk (fun c a b => a / D c * b) 0 (rowSlice es i) (rowSlice es j)))
      (fun i _ => ?_) ?_ ?_ ?_ ?_
    · show Prog.rd _ _ = Prog.rd _ _
      congr 1
      funext v
      congr 1
      exact loopP_upd _ _ _
    · intro i _
      rw [List.map_cons, List.map_map, List.nodup_cons]
      refine ⟨?_, List.Nodup.map (fun a b h => by simpa using h) List.nodup_range'⟩
      simp only [List.mem_map, List.mem_range'_1, comp]
      rintro ⟨j, hj, he⟩
      simp only [Prod.mk.injEq] at he
      omega
    · intro i j _ _ hij u hu w hw
      have hu1 : u.1.1 = i + st := by
        rcases List.mem_cons.1 hu with rfl | hu
        · rfl
        · obtain ⟨a, _, rfl⟩ := List.mem_map.1 hu; rfl
      have hw1 : w.1.1 = j + st := by
        rcases List.mem_cons.1 hw with rfl | hw
        · rfl
        · obtain ⟨a, _, rfl⟩ := List.mem_map.1 hw; rfl
      intro e
      rw [e, hw1] at hu1
      omega
    · intro i hi u hu
      rcases List.mem_cons.1 hu with rfl | hu
      · have h3 : st ≤ i + st ∧ i + st < st + p ∧ i + st ≤ i + st ∧ i + st < st + p := by omega
        simp only [uncurry, if_pos h3, if_true, Nat.add_sub_cancel]
      · simp only [List.mem_map, List.mem_range'_1] at hu
        obtain ⟨a, ha, rfl⟩ := hu
        have h2 : i < a ∧ a < p := by omega
        have h3 : st ≤ i + st ∧ i + st < st + p ∧ i + st ≤ a + st ∧ a + st < st + p := by omega
        have h4 : ¬ (i + st = a + st) := by omega
        simp only [uncurry, if_pos h3, if_neg h4, Nat.add_sub_cancel]
    · rintro ⟨a, b⟩ hl
      have : ¬ (st ≤ a ∧ a < st + p ∧ a ≤ b ∧ b < st + p) := by
        rintro ⟨g1, g2, g3, g4⟩
        by_cases hab : a = b
        · subst hab
          refine hl (a - st) (by omega) _ List.mem_cons_self ?_
          simp only [Prod.mk.injEq]
          omega
        · refine hl (a - st) (by omega) _ (List.mem_cons_of_mem _
            (List.mem_map.2 ⟨b - st, List.mem_range'_1.2 (by omega), rfl⟩)) ?_
          simp only [Prod.mk.injEq]
          omega
      simp only [uncurry, if_neg this]
  · rw [Out.check_neg h1, if_neg h1]
    rfl

/-- **C62, weighted product of two matrices added to a block.** -/
theorem C62_addMDinvNt (M1 M2 : List (Ent K)) (rs cs : ℕ) (alpha : K) (D : ℕ → K)
    (W r : ℕ → ℕ → K) (hr : addMDinvNt p s M1 M2 rs cs alpha D W = some r) :
    addMDinvNtR p s M1 M2 rs cs alpha D (uncurry W) = Out.one (uncurry r) := by
  unfold addMDinvNt at hr
  by_cases hc : rowStartsOk p M1 && rowStartsOk s M2 && (decide (s = 0) || decide (p + rs ≤ cs + 1))
  · rw [if_pos hc, Option.some.injEq] at hr
    subst hr
    simp only [Bool.and_eq_true] at hc
    unfold addMDinvNtR
    rw [Out.check_pos hc.1.1, Out.check_pos hc.1.2]
    refine forallR_upd _ (fun i => (List.range s).map fun j => ((i + rs, j + cs), fun w =>
      w + alpha * walk (fun c a b => a / D c * b) 0 (rowSlice M1 i) (rowSlice M2 j)))
      (fun i _ => loopP_upd _ _ _) ?_ ?_ ?_ ?_
    · intro i _
      rw [List.map_map]
      exact List.Nodup.map (fun a b h => by simpa using h) List.nodup_range
    · intro i j _ _ hij u hu w hw
      simp only [List.mem_map] at hu hw
      obtain ⟨a, _, rfl⟩ := hu
      obtain ⟨b, _, rfl⟩ := hw
      simp [hij]
    · intro i hi u hu
      simp only [List.mem_map, List.mem_range] at hu
      obtain ⟨a, ha, rfl⟩ := hu
      have h3 : rs ≤ i + rs ∧ i + rs < rs + p ∧ cs ≤ a + cs ∧ a + cs < cs + s := by omega
      simp only [uncurry, if_pos h3, Nat.add_sub_cancel]
    · rintro ⟨a, b⟩ hl
      have : ¬ (rs ≤ a ∧ a < rs + p ∧ cs ≤ b ∧ b < cs + s) := by
        rintro ⟨g1, g2, g3, g4⟩
        refine hl (a - rs) (by omega) _
          (List.mem_map.2 ⟨b - cs, List.mem_range.2 (by omega), rfl⟩) ?_
        simp only [Prod.mk.injEq]
        omega
      simp only [uncurry, if_neg this]
  · rw [if_neg hc] at hr
    exact absurd hr (by simp)

/-- **C62, copy to a dense matrix.** -/
theorem C62_copyToDense (es : List (Ent K)) :
    (InRange p q es → copyToDenseR p q es = Out.one (uncurry (copyToDense es))) ∧
    (¬ InRange p q es → none ∈ copyToDenseR p q es) := by
  refine ⟨fun h => ?_, fun h => ?_⟩
  · unfold copyToDenseR
    rw [forallR_addList es _ _ fun e l => (if l = (e.r, e.c) then e.v else 0) + 0]
    · congr 1
      funext ⟨i, j⟩
      simp only [uncurry, C27_copyToDense, entry, zero_add, add_zero, Prod.mk.injEq]
      congr 1
      refine List.map_congr_left fun e _ => ?_
      simp only [eq_comm]
    · intro i hi
      have hr := h es[i] (List.getElem_mem hi)
      rw [nth_lt hi, assertP, if_pos hr.1, assertP, if_pos hr.2]
      exact Adds.add _ _ Adds.ret
  · obtain ⟨i, hi, hb⟩ := exists_bad h
    refine forallR_abort hi ?_
    rw [nth_lt hi, assertP]
    by_cases h1 : es[i].r < p
    · rw [if_pos h1, assertP, if_neg fun h2 => hb ⟨h1, h2⟩]
    · rw [if_neg h1]

/-! ## Additions that are not atomic -/

/-- A loop of plain additions at pairwise different elements. -/
theorem forallR_plusEq {L : Type} [DecidableEq L] (es : List (Ent K)) (loc : Ent K → L)
    (c : Ent K → K) (m : L → K) (body : ℕ → Prog L fun _ => K)
    (hb : ∀ i (hi : i < es.length), body i = plusEq (loc es[i]) (c es[i]) .ret)
    (hd : es.Pairwise fun a b => loc a ≠ loc b) :
    forallR es.length body m
      = Out.one fun l => m l + (es.map fun e => if l = loc e then c e else 0).sum := by
  have hinj : ∀ i j (hi : i < es.length) (hj : j < es.length), i ≠ j → loc es[i] ≠ loc es[j] := by
    intro i j hi hj hij
    rw [List.pairwise_iff_getElem] at hd
    rcases Nat.lt_or_ge i j with h | h
    · exact hd i j hi hj h
    · exact (hd j i hj hi (by omega)).symm
  refine forallR_upd _ (fun i => if hi : i < es.length then [(loc es[i], fun v => v + c es[i])] else [])
    (fun i hi => ?_) (fun i hi => by simp [hi]) ?_ ?_ ?_
  · rw [hb i hi, dif_pos hi]; rfl
  · intro i j hi hj hij u hu w hw
    rw [dif_pos hi, List.mem_singleton] at hu
    rw [dif_pos hj, List.mem_singleton] at hw
    subst hu hw
    exact hinj i j hi hj hij
  · intro i hi u hu
    rw [dif_pos hi, List.mem_singleton] at hu
    subst hu
    simp only
    congr 1
    rw [← sum_range_list es (fun e => if loc es[i] = loc e then c e else 0)
      (fun j => if hj : j < es.length then if loc es[i] = loc es[j] then c es[j] else 0 else 0)
      (fun j hj => by simp [hj]), Finset.sum_eq_single i]
    · simp [hi]
    · intro j hj hji
      have hj' := Finset.mem_range.1 hj
      rw [dif_pos hj', if_neg (hinj i j hi hj' (Ne.symm hji))]
    · intro h
      exact absurd (Finset.mem_range.2 hi) h
  · intro l hl
    have : (es.map fun e => if l = loc e then c e else 0) = es.map fun _ => 0 := by
      refine List.map_congr_left fun e he => ?_
      obtain ⟨i, hi, rfl⟩ := List.mem_iff_getElem.1 he
      refine if_neg fun h => hl i hi (loc es[i], fun v => v + c es[i]) ?_ h.symm
      rw [dif_pos hi]
      exact List.mem_singleton.2 rfl
    simp [this]

theorem addAt_foldlM (es : List (Ent K)) (ok : Ent K → Prop) [DecidablePred ok] (f g : Ent K → ℕ)
    (c : Ent K → K) (W r : ℕ → ℕ → K)
    (h : es.foldlM (fun W e => if ok e then some (addAt W (f e) (g e) (c e)) else none) W = some r) :
    (∀ e ∈ es, ok e) ∧
      ∀ i j, r i j = W i j + (es.map fun e => if i = f e ∧ j = g e then c e else 0).sum := by
  induction es generalizing W with
  | nil =>
    simp only [List.foldlM_nil, Option.pure_def, Option.some.injEq] at h
    subst h
    simp
  | cons e es ih =>
    rw [List.foldlM_cons] at h
    by_cases ho : ok e
    · rw [if_pos ho, Option.bind_eq_bind, Option.bind_some] at h
      obtain ⟨h1, h2⟩ := ih _ h
      refine ⟨fun e' he' => ?_, fun i j => ?_⟩
      · rcases List.mem_cons.1 he' with rfl | he'
        · exact ho
        · exact h1 e' he'
      · rw [h2 i j, List.map_cons, List.sum_cons, addAt]
        by_cases hij : i = f e ∧ j = g e
        · rw [if_pos hij, if_pos hij]; ring
        · rw [if_neg hij, if_neg hij]; ring
    · rw [if_neg ho] at h
      exact absurd h (by simp)

/-- **C62, adding the transpose to a dense matrix, partial.** Without two triplets at one position the
parallel loop gives the host result on every schedule. Missing: matrices with repeated positions,
which the host adds up. -/
theorem C62_transAdd_partial (N : ℕ) (es : List (Ent K)) (hd : Distinct es) (rs cs : ℕ) (alpha : K)
    (W r : ℕ → ℕ → K) (hr : transAddUpper N es rs cs alpha W = some r) :
    transAddR es rs cs alpha (uncurry W) = Out.one (uncurry r) := by
  obtain ⟨_, h2⟩ := addAt_foldlM es _ (fun e => e.c + rs) (fun e => e.r + cs) (fun e => alpha * e.v)
    W r hr
  unfold transAddR
  rw [forallR_plusEq es (fun e => (e.c + rs, e.r + cs)) (fun e => alpha * e.v) _ _
    (fun i hi => nth_lt hi _) (hd.imp fun {a b} h e => h (by
      simp only [Prod.mk.injEq] at e; omega))]
  congr 1
  funext ⟨i, j⟩
  simp only [uncurry, h2, Prod.mk.injEq]

/-- **C62, adding a symmetric matrix to a dense matrix, partial.** Missing: repeated positions. -/
theorem C62_symAdd_partial (N : ℕ) (es : List (Ent K)) (hd : Distinct es) (ds : ℕ) (alpha : K)
    (W r : ℕ → ℕ → K) (hr : symAddUpper N es ds alpha W = some r) :
    symAddR N es ds alpha (uncurry W) = Out.one (uncurry r) := by
  obtain ⟨h1, h2⟩ := addAt_foldlM es _ (fun e => e.r + ds) (fun e => e.c + ds) (fun e => alpha * e.v)
    W r hr
  unfold symAddR
  rw [forallR_plusEq es (fun e => (e.r + ds, e.c + ds)) (fun e => alpha * e.v) _ _
    (fun i hi => ?_) (hd.imp fun {a b} h e => h (by
      simp only [Prod.mk.injEq] at e; omega))]
  · congr 1
    funext ⟨i, j⟩
    simp only [uncurry, h2, Prod.mk.injEq]
  · have ho := h1 es[i] (List.getElem_mem hi)
    rw [nth_lt hi, assertP, if_pos ho.1, assertP, if_pos ho.2]

/-- The index assertion fails on the device where the host stops. -/
theorem C62_symAdd_abort (N : ℕ) (es : List (Ent K)) (ds : ℕ) (alpha : K)
    (W : ℕ → ℕ → K) (hr : symAddUpper N es ds alpha W = none) :
    none ∈ symAddR N es ds alpha (uncurry W) := by
  have : ¬ ∀ e ∈ es, e.r ≤ e.c ∧ e.r + ds < N ∧ e.c + ds < N := by
    intro hall
    have gen : ∀ (es : List (Ent K)), (∀ e ∈ es, e.r ≤ e.c ∧ e.r + ds < N ∧ e.c + ds < N) →
        ∀ W : ℕ → ℕ → K, symAddUpper N es ds alpha W ≠ none := by
      intro es
      induction es with
      | nil => intro _ W; simp [symAddUpper]
      | cons e es ih =>
        intro h W
        unfold symAddUpper
        rw [List.foldlM_cons, if_pos (h e List.mem_cons_self), Option.bind_eq_bind, Option.bind_some]
        exact ih (fun e' he' => h e' (List.mem_cons_of_mem _ he')) _
    exact gen es hall W hr
  push Not at this
  obtain ⟨e, he, hb⟩ := this
  obtain ⟨i, hi, rfl⟩ := List.mem_iff_getElem.1 he
  refine forallR_abort hi ?_
  rw [nth_lt hi, assertP]
  by_cases h1 : es[i].r ≤ es[i].c
  · rw [if_pos h1, assertP, if_neg fun h2 => absurd (hb h1 h2.1) (by omega)]
  · rw [if_neg h1]

/-- **C62, adding a subdiagonal to a vector, partial.** Missing: repeated diagonal entries. -/
theorem C62_addSubDiag_partial (N : ℕ) (es : List (Ent K)) (hd : Distinct es) (ds : ℕ) (alpha : K)
    (v : ℕ → K) (vs num : ℕ) (hN : ∀ e ∈ es, e.r = e.c → ds ≤ e.r → e.r < ds + num → e.r + vs < N) :
    addSubDiagR N es ds alpha v vs num = Out.one (addSubDiagTo es ds alpha v vs num) := by
  have hinj : ∀ i j (hi : i < es.length) (hj : j < es.length), i ≠ j →
      ¬ (es[i].r = es[j].r ∧ es[i].c = es[j].c) := by
    intro i j hi hj hij
    have hd' := hd
    unfold Distinct at hd'
    rw [List.pairwise_iff_getElem] at hd'
    rcases Nat.lt_or_ge i j with h | h
    · exact hd' i j hi hj h
    · exact fun e => hd' j i hj hi (by omega) ⟨e.1.symm, e.2.symm⟩
  have host : ∀ l, addSubDiagTo es ds alpha v vs num l = v l + (es.map fun e =>
      if (e.r = e.c ∧ ds ≤ e.r ∧ e.r < ds + num) ∧ l = vs + e.r then alpha * e.v else 0).sum := by
    intro l
    unfold addSubDiagTo
    clear hd hinj hN
    induction es generalizing v with
    | nil => simp
    | cons e es ih =>
      rw [List.foldl_cons, ih, List.map_cons, List.sum_cons]
      by_cases h : e.r = e.c ∧ ds ≤ e.r ∧ e.r < ds + num
      · by_cases hl : l = vs + e.r
        · rw [if_pos h, if_pos ⟨h, hl⟩, hl, update_self]; ring
        · rw [if_pos h, if_neg fun x => hl x.2, update_of_ne hl]; ring
      · rw [if_neg h, if_neg fun x => h x.1]; ring
  let good : Ent K → Prop := fun e => e.r = e.c ∧ ds ≤ e.r ∧ e.r < ds + num
  refine forallR_upd _ (fun i => if hi : i < es.length then
    if es[i].r = es[i].c ∧ ds ≤ es[i].r ∧ es[i].r < ds + num then
      [(vs + es[i].r, fun x => x + alpha * es[i].v)] else [] else []) (fun i hi => ?_) (fun i hi => ?_)
    ?_ ?_ ?_
  · rw [nth_lt hi, dif_pos hi]
    by_cases h1 : es[i].r = es[i].c
    · by_cases h2 : ds ≤ es[i].r ∧ es[i].r < ds + num
      · rw [if_pos h1, if_pos h2, if_pos ⟨h1, h2⟩, assertP,
          if_pos (hN _ (List.getElem_mem hi) h1 h2.1 h2.2)]
        rfl
      · rw [if_pos h1, if_neg h2, if_neg fun x => h2 x.2]; rfl
    · rw [if_neg h1, if_neg fun x => h1 x.1]; rfl
  · rw [dif_pos hi]
    split <;> simp
  · intro i j hi hj hij u hu w hw
    rw [dif_pos hi] at hu
    rw [dif_pos hj] at hw
    split at hu
    · split at hw
      · rename_i g1 g2
        rw [List.mem_singleton] at hu hw
        subst hu hw
        have := hinj i j hi hj hij
        simp only
        omega
      · simp at hw
    · simp at hu
  · intro i hi u hu
    rw [dif_pos hi] at hu
    split at hu
    · rename_i g1
      rw [List.mem_singleton] at hu
      subst hu
      rw [host]
      congr 1
      rw [← sum_range_list es _
        (fun j => if hj : j < es.length then
          if (es[j].r = es[j].c ∧ ds ≤ es[j].r ∧ es[j].r < ds + num) ∧ vs + es[i].r = vs + es[j].r
          then alpha * es[j].v else 0 else 0)
        (fun j hj => by simp [hj]), Finset.sum_eq_single i]
      · rw [dif_pos hi, if_pos ⟨g1, rfl⟩]
      · intro j hj hji
        have hj' := Finset.mem_range.1 hj
        have := hinj i j hi hj' (Ne.symm hji)
        rw [dif_pos hj', if_neg fun x => this (by omega)]
      · intro h
        exact absurd (Finset.mem_range.2 hi) h
    · simp at hu
  · intro l hl
    rw [host]
    have : (es.map fun e => if (e.r = e.c ∧ ds ≤ e.r ∧ e.r < ds + num) ∧ l = vs + e.r
        then alpha * e.v else 0) = es.map fun _ => 0 := by
      refine List.map_congr_left fun e he => ?_
      obtain ⟨i, hi, rfl⟩ := List.mem_iff_getElem.1 he
      refine if_neg fun h => hl i hi (vs + es[i].r, fun x => x + alpha * es[i].v) ?_ h.2.symm
      rw [dif_pos hi, if_pos h.1]
      exact List.mem_singleton.2 rfl
    simp [this]

/-- Two triplets at one position of a 2 by 2 matrix. -/
def exDup : List (Ent ℚ) := [⟨0, 1, 3⟩, ⟨0, 1, 4⟩]

/-- **C62 fails for repeated positions, dense addition.** The host leaves 7, the parallel loop may
leave 4. -/
theorem C62_symAdd_refuted :
    (symAddUpper 2 exDup 0 1 fun _ _ => 0).map (fun r => r 0 1) = some 7 ∧
    ∃ m, some m ∈ symAddR 2 exDup 0 1 (fun _ => 0) ∧ m (0, 1) = 4 := by
  refine ⟨by decide +kernel, _, lost_update (fun _ => 0) (0, 1) (fun i => if i = 0 then 3 else 4) _
    ?_ ?_, ?_⟩
  · simp [nth, exDup, assertP, plusEq]
  · simp [nth, exDup, assertP, plusEq]
  · simp

/-- **C62 fails for repeated positions, transposed addition.** -/
theorem C62_transAdd_refuted :
    (transAddUpper 4 exDup 0 2 1 fun _ _ => 0).map (fun r => r 1 2) = some 7 ∧
    ∃ m, some m ∈ transAddR exDup 0 2 1 (fun _ => 0) ∧ m (1, 2) = 4 := by
  refine ⟨by decide +kernel, _, lost_update (fun _ => 0) (1, 2) (fun i => if i = 0 then 3 else 4) _
    ?_ ?_, ?_⟩
  · simp [nth, exDup, plusEq]
  · simp [nth, exDup, plusEq]
  · simp

/-- **C62 fails for repeated positions, subdiagonal.** -/
theorem C62_addSubDiag_refuted :
    addSubDiagTo [⟨0, 0, 3⟩, ⟨0, 0, 4⟩] 0 (1 : ℚ) (fun _ => 0) 0 1 0 = 7 ∧
    ∃ m, some m ∈ addSubDiagR 1 [⟨0, 0, 3⟩, ⟨0, 0, 4⟩] 0 (1 : ℚ) (fun _ => 0) 0 1 ∧ m 0 = 4 := by
  refine ⟨by decide +kernel, _, lost_update (fun _ => 0) 0 (fun i => if i = 0 then 3 else 4) _
    ?_ ?_, ?_⟩
  · simp [nth, assertP, plusEq]
  · simp [nth, assertP, plusEq]
  · simp

/-! ## Norms, scaling and tests -/

theorem rowStartsOk_sorted {es : List (Ent K)} (h : rowStartsOk p es = true) :
    RowSorted es ∧ ∀ e ∈ es, e.r < p := by
  have key : ∀ n, RowSorted (es.take (rowStart es n)) ∧ ∀ e ∈ es.take (rowStart es n), e.r < n := by
    intro n
    induction n with
    | zero => exact ⟨by simp [rowStart, RowSorted], by simp [rowStart]⟩
    | succ n ih =>
      set t := (es.drop (rowStart es n)).takeWhile fun e => decide (e.r = n) with ht
      have e1 : es.take (rowStart es (n + 1)) = es.take (rowStart es n) ++ t := by
        rw [rowStart, List.take_add]
        congr 1
        rw [← ht]
        exact (List.prefix_iff_eq_take.1 (List.takeWhile_prefix _)).symm
      have ht' : ∀ e ∈ t, e.r = n := fun e he => by
        simpa using List.all_eq_true.1 List.all_takeWhile e he
      rw [e1]
      refine ⟨?_, fun e he => ?_⟩
      · unfold RowSorted
        rw [List.pairwise_append]
        refine ⟨ih.1, ?_, fun a ha b hb => ?_⟩
        · exact List.pairwise_of_forall_mem_list fun a ha b hb => by rw [ht' a ha, ht' b hb]
        · have := ih.2 a ha
          rw [ht' b hb]
          omega
      · rcases List.mem_append.1 he with he | he
        · have := ih.2 e he; omega
        · rw [ht' e he]; omega
  rw [rowStartsOk, beq_iff_eq] at h
  have := key p
  rwa [h, List.take_length] at this

theorem rowMaxAbs_row (es : List (Ent K)) (y : ℕ → K) (i : ℕ) :
    es.foldl (fun y e => if y e.r < |e.v| then update y e.r |e.v| else y) y i
      = (es.filter fun e => decide (e.r = i)).foldl (fun a e => if |e.v| < a then a else |e.v|) (y i) := by
  induction es generalizing y with
  | nil => rfl
  | cons e es ih =>
    rw [List.foldl_cons, ih, List.filter_cons]
    by_cases h : e.r = i
    · simp only [h, decide_true, if_true, List.foldl_cons]
      congr 1
      by_cases h1 : y i < |e.v|
      · rw [if_pos h1, update_self, if_neg (not_lt.2 h1.le)]
      · rw [if_neg h1]
        by_cases h2 : |e.v| < y i
        · rw [if_pos h2]
        · rw [if_neg h2]; exact le_antisymm (not_lt.1 h2) (not_lt.1 h1)
    · simp only [h, decide_false, Bool.false_eq_true, if_false]
      congr 1
      split
      · rw [update_of_ne (Ne.symm h)]
      · rfl

theorem forallR_zero {n : ℕ} (y : ℕ → K) :
    forallR n (fun i => (Prog.wr i 0 .ret : Prog ℕ fun _ => K)) y
      = Out.one fun i => if i < n then 0 else y i := by
  refine forallR_wr _ (fun i => i) (fun i j _ _ h => h) (fun i hi => by simp [hi]) fun l hl => ?_
  have : ¬ l < n := fun h => hl l h rfl
  simp [this]

theorem rowMax_run (l : List (Ent K)) (i : ℕ) (m : ℕ → K) :
    run (loopP l fun e k => (Prog.rd i fun v =>
      if |e.v| < v then .rd i fun v' => .wr i v' k else .wr i |e.v| k : Prog ℕ fun _ => K)) m
      = some (update m i (l.foldl (fun a e => if |e.v| < a then a else |e.v|) (m i))) := by
  induction l generalizing m with
  | nil => simp [loopP, run]
  | cons e l ih =>
    show run (if |e.v| < m i then _ else _) m = _
    by_cases h : |e.v| < m i
    · rw [if_pos h]
      show run (loopP l _) (update m i (m i)) = _
      rw [ih, List.foldl_cons, if_pos h]
      simp
    · rw [if_neg h]
      show run (loopP l _) (update m i |e.v|) = _
      rw [ih, List.foldl_cons, if_neg h]
      simp

theorem rowMax_within (l : List (Ent K)) (i : ℕ) :
    Within {i} ∅ (loopP l fun e k => (Prog.rd i fun v =>
      if |e.v| < v then .rd i fun v' => .wr i v' k else .wr i |e.v| k : Prog ℕ fun _ => K)) := by
  induction l with
  | nil => trivial
  | cons e l ih =>
    refine ⟨Or.inl rfl, fun v => ?_⟩
    by_cases h : |e.v| < v
    · simp only [if_pos h]
      exact ⟨Or.inl rfl, fun _ => ⟨rfl, ih⟩⟩
    · simp only [if_neg h]
      exact ⟨rfl, ih⟩

/-- **C62, row maxima.** With sorted rows in range the parallel row maxima are the host's; otherwise
the builder of the row starts stops. -/
theorem C62_rowMaxAbs (es : List (Ent K)) (y : ℕ → K) (hp : 0 < p) :
    (RowSorted es ∧ (∀ e ∈ es, e.r < p) →
      rowMaxAbsR p es y = Out.one fun i => if i < p then rowMaxAbs es i else y i) ∧
    (¬ (RowSorted es ∧ ∀ e ∈ es, e.r < p) → rowMaxAbsR p es y = Out.abort) := by
  unfold rowMaxAbsR
  rw [forallR_zero, Out.one_andThen, if_neg (by omega)]
  refine ⟨fun ⟨hs, hr⟩ => ?_, fun h => ?_⟩
  · rw [Out.check_pos ((rowStartsOk_iff es hs p).2 hr)]
    refine forallR_race_free _ (fun i => {i}) (fun _ => ∅) (fun i => _)
      (fun i _ => rowMax_within _ i) ?_ (fun i _ => rowMax_run _ i _) ?_ ?_
    · intro i j _ _ hij l hl
      rw [Set.mem_singleton_iff] at hl
      subst hl
      exact ⟨hij, fun h => h⟩
    · intro i hi l hl
      rw [Set.mem_singleton_iff] at hl
      subst hl
      simp only [if_pos hi, update_self]
      rw [rowMaxAbs, rowMaxAbs_row, rowSlice_eq es hs]
    · intro l hl
      have : ¬ l < p := fun h => hl l h rfl
      simp [this]
  · rw [Out.check_neg]
    intro hc
    exact h (rowStartsOk_sorted hc)

/-- **C62, row scaling.** -/
theorem C62_scaleRow (es : List (Ent K)) (d : ℕ → K) (inv : Bool) (vals : ℕ → K) (irow : ℕ → ℕ)
    (h : ∀ k (hk : k < es.length), irow k = es[k].r ∧ vals k = es[k].v) :
    scaleRowR es.length irow d inv vals
      = Out.one fun k => if hk : k < (scaleRow es d inv).length then (scaleRow es d inv)[k].v
        else vals k := by
  refine forallR_upd _
    (fun k => [(k, fun v => v * (if inv then 1 / d (irow k) else d (irow k)))])
    (fun i _ => rfl) (fun i _ => by simp) ?_ ?_ ?_
  · intro i j _ _ hij u hu w hw
    rw [List.mem_singleton] at hu hw
    subst hu hw
    exact hij
  · intro i hi u hu
    rw [List.mem_singleton] at hu
    subst hu
    have hi' : i < (scaleRow es d inv).length := by simpa [scaleRow] using hi
    simp only [hi', dif_pos]
    simp [scaleRow, h i hi]
  · intro l hl
    have : ¬ l < (scaleRow es d inv).length := fun hk =>
      hl l (by simpa [scaleRow] using hk) _ (List.mem_singleton.2 rfl) rfl
    simp [this]

/-- **C62, setting all values.** -/
theorem C62_setToConstant (nnz : ℕ) (c : K) (vals : ℕ → K) :
    setToConstantR nnz c vals = Out.one fun k => if k < nnz then c else vals k := by
  refine forallR_wr _ (fun i => i) (fun i j _ _ h => h) (fun i hi => by simp [hi]) fun l hl => ?_
  have : ¬ l < nnz := fun h => hl l h rfl
  simp [this]

theorem combines_nat {l : List ℕ} {a : ℕ} : Combines (· + ·) 0 l a ↔ a = l.sum := by
  constructor
  · intro h
    exact combines_eq (fun _ => True) trivial (fun _ _ _ _ => trivial) Nat.add_comm Nat.add_assoc
      (fun a _ => Nat.zero_add a) h fun _ _ => trivial
  · rintro rfl
    exact combines_exists _ _ _

/-- **C62, largest magnitude.** Every order of the reduction gives the largest magnitude stored, 0 for
an empty matrix. -/
theorem C62_maxAbs (es : List (Ent K)) :
    ∃ r, maxAbsR es = {r} ∧ (∀ e ∈ es, |e.v| ≤ r) ∧ (r = 0 ∧ es = [] ∨ ∃ e ∈ es, r = |e.v|) := by
  refine ⟨(es.map fun e => |e.v|).foldr max 0, ?_, ?_, ?_⟩
  · ext a
    rw [Set.mem_singleton_iff]
    constructor
    · intro h
      refine combines_eq (fun a : K => 0 ≤ a) le_rfl (fun a b h1 _ => h1.trans (le_max_left _ _))
        max_comm (fun a b c => max_assoc a b c) (fun a h => max_eq_right h) h fun x hx => ?_
      obtain ⟨e, _, rfl⟩ := List.mem_map.1 hx
      exact abs_nonneg _
    · rintro rfl
      exact combines_exists _ _ _
  · intro e he
    induction es with
    | nil => simp at he
    | cons a es ih =>
      rw [List.map_cons, List.foldr_cons]
      rcases List.mem_cons.1 he with rfl | he
      · exact le_max_left _ _
      · exact (ih he).trans (le_max_right _ _)
  · induction es with
    | nil => exact Or.inl ⟨rfl, rfl⟩
    | cons a es ih =>
      refine Or.inr ?_
      rw [List.map_cons, List.foldr_cons]
      rcases le_total |a.v| ((es.map fun e => |e.v|).foldr max 0) with h | h
      · rw [max_eq_right h]
        rcases ih with ⟨h1, h2⟩ | ⟨e, he, h1⟩
        · refine ⟨a, List.mem_cons_self, ?_⟩
          rw [h1] at h ⊢
          exact le_antisymm (abs_nonneg _) h
        · exact ⟨e, List.mem_cons_of_mem _ he, h1⟩
      · rw [max_eq_left h]
        exact ⟨a, List.mem_cons_self, rfl⟩

theorem sum_ones {α : Type} (l : List α) : (l.map fun _ => 1).sum = l.length := by simp

/-- **C62, finiteness test.** -/
theorem C62_isFinite (fin : K → Bool) (es : List (Ent K)) :
    isFiniteR fin es = {es.all fun e => fin e.v} := by
  ext b
  rw [Set.mem_singleton_iff]
  have key : ((es.filter fun e => !fin e.v).length == 0) = es.all fun e => fin e.v := by
    induction es with
    | nil => rfl
    | cons e es ih =>
      rw [List.filter_cons, List.all_cons, ← ih]
      cases fin e.v <;> simp
  constructor
  · rintro ⟨s, hs, rfl⟩
    rw [combines_nat, sum_ones] at hs
    subst hs
    exact key
  · rintro rfl
    exact ⟨_, combines_nat.2 rfl, by rw [sum_ones, key]⟩

/-- **C62, diagonality test.** -/
theorem C62_isDiagonal (es : List (Ent K)) : isDiagonalR p q es = {isDiagonal p q es} := by
  ext b
  rw [Set.mem_singleton_iff]
  unfold isDiagonalR isDiagonal
  by_cases h : p ≠ q
  · simp [h]
  · have key : ((es.filter fun e => decide (e.r ≠ e.c)).length == 0)
        = es.all fun e => decide (e.r = e.c) := by
      clear h
      induction es with
      | nil => rfl
      | cons e es ih =>
        rw [List.filter_cons, List.all_cons, ← ih]
        by_cases hd : e.r = e.c <;> simp [hd]
    simp only [h, if_false, Set.mem_ofPred_eq]
    constructor
    · rintro ⟨s, hs, rfl⟩
      rw [combines_nat, sum_ones] at hs
      subst hs
      exact key
    · rintro rfl
      exact ⟨_, combines_nat.2 rfl, by rw [sum_ones, key]⟩

/-- **C62, number of off-diagonal nonzeros.** -/
theorem C62_numOffDiag (es : List (Ent K)) : numOffDiagR none es = {numOffDiag es} := by
  have hn := C27_numOffDiag es
  ext r
  rw [Set.mem_singleton_iff]
  have key : es.length - (es.filter fun e => decide (e.r = e.c)).length = numOffDiag es := by
    have gen : ∀ (es : List (Ent K)) (n : ℕ),
        es.foldl (fun n e => if e.r = e.c then n - 1 else n) n
          = n - (es.filter fun e => decide (e.r = e.c)).length := by
      intro es
      induction es with
      | nil => intro n; simp
      | cons e es ih =>
        intro n
        rw [List.foldl_cons, ih, List.filter_cons]
        by_cases hd : e.r = e.c <;> simp [hd]
        omega
    rw [numOffDiag, gen]
  constructor
  · rintro ⟨s, hs, rfl⟩
    rw [combines_nat, sum_ones] at hs
    subst hs
    exact key
  · rintro rfl
    exact ⟨_, combines_nat.2 rfl, by rw [sum_ones, key]⟩

end Hiop.Raja
