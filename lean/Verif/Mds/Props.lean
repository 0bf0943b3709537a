import Verif.Mds.Model
import Verif.Sparse.Assembly
import Verif.Sparse.Rows
import Verif.DenseMat.Props

/-!
# C60: mixed dense-sparse matrices are their dense matrices
-/

set_option linter.unusedSectionVars false
set_option linter.unusedSimpArgs false

namespace Hiop.Mds

open Hiop.Vec Hiop.Sparse Hiop.DenseMat Finset

variable {K : Type*} [Field K] [LinearOrder K] [IsStrictOrderedRing K]
  {A B X : Mat K} {W : DMat K} {m ns nd k : ℕ} {g x : ℕ → ℕ → K} {w : ℕ → ℕ → K}

/-! ## Specification -/

/-- `A` holds the `m` by `ns + nd` matrix `g`, the first `ns` columns as triplets (equal positions are
added), the others as a dense matrix. -/
structure IsM (A : Mat K) (m ns nd : ℕ) (g : ℕ → ℕ → K) : Prop where
  hm : A.m = m
  hs : A.ns = ns
  rng : InRange m ns A.es
  sp : ∀ i < m, ∀ j < ns, entry A.es i j = g i j
  de : Is A.de m nd fun i j => g i (ns + j)

/-- `A` holds the symmetric block-diagonal matrix `g` of size `ns + nd`: triplets of the upper triangle of
the first block, the second block as a full dense matrix. -/
structure IsS (A : Mat K) (ns nd : ℕ) (g : ℕ → ℕ → K) : Prop where
  hm : A.m = ns
  hs : A.ns = ns
  rng : InRange ns ns A.es
  up : ∀ e ∈ A.es, e.r ≤ e.c
  sp : ∀ i < ns, ∀ j < ns, symEntry A.es i j = g i j
  de : Is A.de nd nd fun i j => g (ns + i) (ns + j)
  z1 : ∀ i < ns, ∀ j < nd, g i (ns + j) = 0
  z2 : ∀ i < nd, ∀ j < ns, g (ns + i) j = 0

/-! ## Parts of arrays -/

theorem part_some {a : Arr K} {off cnt : ℕ} (h : off + cnt ≤ a.size) :
    part a off cnt = some ⟨cnt, fun k => a.get (off + k)⟩ := if_pos h

theorem onPart_some {a : Arr K} {off cnt : ℕ} {f : Arr K → Option (Arr K)} {b : Arr K}
    (h : off + cnt ≤ a.size) (hf : f ⟨cnt, fun k => a.get (off + k)⟩ = some b) :
    onPart a off cnt f = some ⟨a.size, fun k => if off ≤ k ∧ k < off + cnt then b.get (k - off)
      else a.get k⟩ := by
  unfold onPart; rw [if_pos h, hf]; rfl

theorem sum_split (ns nd : ℕ) (f : ℕ → K) :
    ∑ j ∈ range (ns + nd), f j = (∑ j : Fin ns, f j) + ∑ j ∈ range nd, f (ns + j) := by
  rw [sum_range_add, Finset.sum_range]

/-! ## Products with vectors -/

/-- **C60, product with a vector.** `y = beta*y + alpha*A*x`. -/
theorem C60_timesVec (hA : IsM A m ns nd g) (beta alpha : K) (y v : Arr K) (hy : y.size = m)
    (hv : v.size = ns + nd) :
    ∃ y', timesVec A beta y alpha v = some y' ∧ y'.size = m ∧
      ∀ i < m, y'.get i = beta * y.get i + alpha * ∑ j ∈ range (ns + nd), g i j * v.get j := by
  unfold timesVec
  rw [hA.hm, hA.hs, hA.de.hm, hA.de.hn, if_pos hv, part_some (by omega), Option.bind_some,
    onPart_some (b := ofVec (p := m) fun i => beta * y.get (0 + i) +
      alpha * ∑ j : Fin ns, entry A.es i j * v.get (0 + j)) (by omega) (by
        rw [(C27_timesVec A.es beta alpha _ _).1 hA.rng]; rfl),
    Option.bind_some, part_some (by omega), Option.bind_some]
  obtain ⟨y2, h1, h2, h3⟩ := C58_timesVec hA.de 1 alpha
    (⟨m, fun k => if 0 ≤ 0 + k ∧ 0 + k < 0 + m then (ofVec (p := m) fun i => beta * y.get (0 + i) +
      alpha * ∑ j : Fin ns, entry A.es i j * v.get (0 + j)).get (0 + k - 0) else y.get (0 + k)⟩ : Arr K)
    ⟨nd, fun k => v.get (ns + k)⟩ rfl rfl
  rw [onPart_some (f := fun y => DenseMat.timesVec A.de 1 y alpha ⟨nd, fun k => v.get (ns + k)⟩)
    (by show 0 + m ≤ y.size; omega) h1]
  refine ⟨_, rfl, hy, fun i hi => ?_⟩
  simp only [zero_add, Nat.sub_zero, zero_le, true_and, hi, if_true]
  rw [h3 i hi, sum_split]
  simp only [zero_add, Nat.sub_zero, zero_le, true_and, hi, if_true, ofVec, dif_pos]
  have : ∀ j : Fin ns, entry A.es i j = g i j := fun j => hA.sp i hi j j.2
  simp only [this]
  ring

/-- **C60, product of the transpose with a vector.** `y = beta*y + alpha*A'*x`. -/
theorem C60_transTimesVec (hA : IsM A m ns nd g) (beta alpha : K) (y v : Arr K) (hy : y.size = ns + nd)
    (hv : v.size = m) :
    ∃ y', transTimesVec A beta y alpha v = some y' ∧ y'.size = ns + nd ∧
      ∀ j < ns + nd, y'.get j = beta * y.get j + alpha * ∑ i ∈ range m, g i j * v.get i := by
  unfold transTimesVec
  rw [hA.hm, hA.hs, hA.de.hm, hA.de.hn, if_pos hy, part_some (by omega), Option.bind_some,
    onPart_some (b := ofVec (p := ns) fun j => beta * y.get (0 + j) +
      alpha * ∑ i : Fin m, entry A.es i j * v.get (0 + i)) (by omega) (by
        rw [(C27_transTimesVec A.es beta alpha _ _).1 hA.rng]; rfl),
    Option.bind_some, Option.bind_some]
  obtain ⟨y2, h1, h2, h3⟩ := C58_transTimesVec hA.de beta alpha
    (⟨nd, fun k => if 0 ≤ ns + k ∧ ns + k < 0 + ns then (ofVec (p := ns) fun j => beta * y.get (0 + j) +
      alpha * ∑ i : Fin m, entry A.es i j * v.get (0 + i)).get (ns + k - 0) else y.get (ns + k)⟩ : Arr K)
    ⟨m, fun k => v.get (0 + k)⟩ rfl rfl
  rw [onPart_some (f := fun y => DenseMat.transTimesVec A.de beta y alpha ⟨m, fun k => v.get (0 + k)⟩)
    (by show ns + nd ≤ y.size; omega) h1]
  refine ⟨_, rfl, hy, fun j hj => ?_⟩
  by_cases hjs : j < ns
  · simp only [zero_add, Nat.sub_zero, zero_le, true_and, hjs, if_true, show ¬ ns ≤ j by omega, false_and,
      if_false, ofVec, dif_pos]
    rw [Finset.sum_range]
    have : ∀ i : Fin m, entry A.es i j = g i j := fun i => hA.sp i i.2 j hjs
    simp only [this]
  · simp only [show ns ≤ j by omega, hj, and_self, if_true]
    rw [h3 (j - ns) (by omega)]
    simp only [zero_add, show ns + (j - ns) = j by omega, hjs, and_false, if_false]

/-- A product with a vector of the wrong size is refused. -/
theorem C60_times_refused (hA : IsM A m ns nd g) (beta alpha : K) (y v : Arr K) :
    (v.size ≠ ns + nd → timesVec A beta y alpha v = none) ∧
    (y.size ≠ ns + nd → transTimesVec A beta y alpha v = none) := by
  unfold timesVec transTimesVec
  rw [hA.hs, hA.de.hn]
  exact ⟨fun h => if_neg h, fun h => if_neg h⟩

/-! ## Dense destinations -/

theorem onDense_is {W : DMat K} {p q : ℕ} {f : (ℕ → ℕ → K) → Option (ℕ → ℕ → K)} {w h : ℕ → ℕ → K}
    (hW : Is W p q w) (hf : f (fun i j => W.data (i * q + j)) = some h) :
    ∃ W', onDense W f = some W' ∧ W'.cap = W.cap ∧ Is W' p q h := by
  unfold onDense
  rw [hW.hn, hW.hm, hf]
  refine ⟨_, rfl, rfl, is_put hW _ fun i hi j hj => ?_⟩
  simp only [pos_lt_size hi hj, if_true, pos_div hj, pos_mod hj]

/-- **C60, product with a transposed matrix.** `W = beta*W + A*X'`, whatever `alpha` is. -/
theorem timesMatTrans_any (hA : IsM A m ns nd g) (hX : IsM X k ns nd x) (hW : Is W m k w)
    (sA : Sorted A.es) (sX : Sorted X.es) (beta alpha : K) :
    ∃ W', timesMatTrans A beta W alpha X = some W' ∧ W'.cap = W.cap ∧
      Is W' m k fun i j => beta * w i j + ∑ l ∈ range (ns + nd), g i l * x j l := by
  unfold timesMatTrans
  obtain ⟨W1, h1, h2, h3⟩ := C58_timesMatTrans hA.de hX.de hW beta 1
  rw [h1, Option.bind_some, hA.hs, hX.hs, hA.hm, hX.hm, h3.hm, h3.hn, if_pos ⟨rfl, rfl, rfl⟩]
  obtain ⟨w2, e1, e2, -⟩ := C27_timesMatTrans A.es X.es 1 1 (fun i j => W1.data (i * k + j)) sA sX
    hA.rng hX.rng
  obtain ⟨W2, h4, h5, h6⟩ := onDense_is (f := fun w => Sparse.timesMatTrans m k A.es X.es 1 w 1) h3 e1
  refine ⟨W2, h4, by rw [h5, h2], h6.ok, h6.hm, h6.hn, fun i hi j hj => ?_⟩
  rw [h6.val i hi j hj, e2 i j hi hj, sum_split]
  have hv := h3.val i hi j hj
  rw [DMat.at, h3.hn] at hv
  simp only [hv]
  have : ∀ l : Fin ns, entry A.es i l * entry X.es j l = g i l * x j l :=
    fun l => by rw [hA.sp i hi l l.2, hX.sp j hj l l.2]
  simp only [this]
  ring

/-- **C60, product with a transposed matrix.** `W = beta*W + alpha*A*X'` for `alpha = 1`. Missing: other
values of `alpha`, for which the result is wrong (`C60_timesMatTrans_alpha_false`). -/
theorem C60_timesMatTrans_partial (hA : IsM A m ns nd g) (hX : IsM X k ns nd x) (hW : Is W m k w)
    (sA : Sorted A.es) (sX : Sorted X.es) (beta alpha : K) (ha : alpha = 1) :
    ∃ W', timesMatTrans A beta W alpha X = some W' ∧ W'.cap = W.cap ∧
      Is W' m k fun i j => beta * w i j + alpha * ∑ l ∈ range (ns + nd), g i l * x j l := by
  obtain ⟨W', h1, h2, h3⟩ := timesMatTrans_any hA hX hW sA sX beta alpha
  exact ⟨W', h1, h2, h3.ok, h3.hm, h3.hn, fun i hi j hj => by rw [h3.val i hi j hj, ha, one_mul]⟩

/-- **C60 fails: `alpha` is ignored.** Whenever `alpha ≠ 1`, every entry where the product is not zero is
wrong. -/
theorem C60_timesMatTrans_alpha_false (hA : IsM A m ns nd g) (hX : IsM X k ns nd x) (hW : Is W m k w)
    (sA : Sorted A.es) (sX : Sorted X.es) (beta alpha : K) (ha : alpha ≠ 1) :
    ∃ W', timesMatTrans A beta W alpha X = some W' ∧ ∀ i < m, ∀ j < k,
      ∑ l ∈ range (ns + nd), g i l * x j l ≠ 0 →
        W'.at i j ≠ beta * w i j + alpha * ∑ l ∈ range (ns + nd), g i l * x j l := by
  obtain ⟨W', h1, h2, h3⟩ := timesMatTrans_any hA hX hW sA sX beta alpha
  refine ⟨W', h1, fun i hi j hj h0 e => ha ?_⟩
  rw [h3.val i hi j hj] at e
  have := mul_right_cancel₀ h0 (show alpha * _ = 1 * _ by rw [one_mul]; exact (add_left_cancel e).symm)
  exact this

/-- **C60, adding the transpose into the upper triangle of a dense symmetric matrix.** -/
theorem C60_transAddTo (hA : IsM A m ns nd g) (hW : Is W k k w) (r0 c0 : ℕ) (alpha : K)
    (hr : r0 + (ns + nd) ≤ k) (hc : c0 + m ≤ k) (hup : r0 + (ns + nd) ≤ c0 + 1) :
    ∃ W', transAddTo A r0 c0 alpha W = some W' ∧ W'.cap = W.cap ∧
      Is W' k k fun i j => w i j +
        if r0 ≤ i ∧ i < r0 + (ns + nd) ∧ c0 ≤ j ∧ j < c0 + m then alpha * g (j - c0) (i - r0) else 0 := by
  unfold transAddTo
  rw [hA.hs, hA.hm, hW.hm, hW.hn, if_pos ⟨by omega, hc, rfl⟩]
  obtain ⟨W1, h1, h2, h3⟩ := onDense_is (f := fun w => transAddUpper k A.es r0 c0 alpha w) hW
    (C27_transAddUpper k A.es r0 c0 alpha hA.rng (by omega) hc (by omega) _)
  rw [h1, Option.bind_some]
  obtain ⟨W2, h4, h5, h6⟩ := C58_transAddTo hA.de h3 (r0 + ns) c0 alpha (by omega) (by omega) (by omega)
  refine ⟨W2, h4, by rw [h5, h2], h6.ok, h6.hm, h6.hn, fun i hi j hj => ?_⟩
  rw [h6.val i hi j hj]
  have hv := hW.val i hi j hj
  rw [DMat.at, hW.hn] at hv
  unfold Kkt.transAdd Kkt.at2
  simp only [hv]
  by_cases hj' : c0 ≤ j ∧ j < c0 + m
  · by_cases h1 : r0 ≤ i ∧ i < r0 + ns
    · rw [if_pos ⟨h1.1, hj'.1⟩, if_neg (by omega), if_pos (by omega), dif_pos (by omega), add_zero]
      show _ + alpha * dense m ns A.es _ _ = _
      unfold dense
      rw [hA.sp _ (by simp only; omega) _ (by simp only; omega)]
    · by_cases h2 : r0 + ns ≤ i ∧ i < r0 + (ns + nd)
      · rw [if_pos (by omega : r0 ≤ i ∧ c0 ≤ j), dif_neg (by omega), mul_zero, add_zero,
          if_pos (by omega), if_pos (by omega), show ns + (i - (r0 + ns)) = i - r0 by omega]
      · rw [if_neg (by omega : ¬ (r0 + ns ≤ i ∧ i < r0 + ns + nd ∧ c0 ≤ j ∧ j < c0 + m)),
          if_neg (by omega : ¬ (r0 ≤ i ∧ i < r0 + (ns + nd) ∧ c0 ≤ j ∧ j < c0 + m))]
        split_ifs with h3
        · omega
        · simp
        · simp
  · rw [if_neg (by omega : ¬ (r0 + ns ≤ i ∧ i < r0 + ns + nd ∧ c0 ≤ j ∧ j < c0 + m)),
      if_neg (by omega : ¬ (r0 ≤ i ∧ i < r0 + (ns + nd) ∧ c0 ≤ j ∧ j < c0 + m))]
    split_ifs with h3
    · omega
    · simp
    · simp

/-! ## Norms, scaling, copies -/

/-- `v` is the largest magnitude of the entries `f i`, `i < n`, zero if there are none. -/
def IsMax (v : K) (n : ℕ) (f : ℕ → K) : Prop := (∀ j < n, |f j| ≤ v) ∧ (v = 0 ∨ ∃ j < n, v = |f j|)

theorem isMax_max {a b : K} {p q : ℕ} {f : ℕ → K} (h1 : IsMax a p f) (h2 : IsMax b q fun j => f (p + j)) :
    IsMax (max a b) (p + q) f := by
  refine ⟨fun j hj => ?_, ?_⟩
  · by_cases h : j < p
    · exact le_max_of_le_left (h1.1 j h)
    · have := h2.1 (j - p) (by omega)
      simp only [show p + (j - p) = j by omega] at this
      exact le_max_of_le_right this
  · rcases max_choice a b with h | h <;> rw [h]
    · rcases h1.2 with h | ⟨j, hj, h⟩
      · exact Or.inl h
      · exact Or.inr ⟨j, by omega, h⟩
    · rcases h2.2 with h | ⟨j, hj, h⟩
      · exact Or.inl h
      · exact Or.inr ⟨p + j, by omega, h⟩

/-- **C60, row maxima.** If no position is stored twice, the result is the largest magnitude in each row. -/
theorem C60_rowMaxAbs (hA : IsM A m ns nd g) (hd : Distinct A.es) (v : Arr K) (hv : v.size = m) :
    ∃ v', rowMaxAbs A v = some v' ∧ v'.size = m ∧ ∀ i < m, IsMax (v'.get i) (ns + nd) (g i) := by
  unfold rowMaxAbs
  obtain ⟨d, h1, h2, h3⟩ := C58_rowMaxAbs hA.de v hv
  rw [hA.hm, if_pos hv, h1]
  refine ⟨_, rfl, hv, fun i hi => isMax_max ⟨fun j hj => ?_, ?_⟩ ⟨fun j hj => ?_, ?_⟩⟩
  · rw [← hA.sp i hi j hj]; exact (C27_rowMaxAbs_dense A.es hd i).1 j
  · rcases (C27_rowMaxAbs_dense A.es hd i).2 with h | ⟨j, h⟩
    · exact Or.inl h
    · by_cases hj : j < ns
      · exact Or.inr ⟨j, hj, by rw [← hA.sp i hi j hj]; exact h⟩
      · left
        rw [h, entry_out_col (j := j) fun e he x => hj (by rw [← x]; exact (hA.rng e he).2), abs_zero]
  · exact (h3 i hi).1 0 (by omega) j hj
  · rcases (h3 i hi).2 with h | ⟨_, _, j, hj, h⟩
    · exact Or.inl h.1
    · exact Or.inr ⟨j, hj, h⟩

/-- **C60, row scaling.** -/
theorem C60_scaleRow (hA : IsM A m ns nd g) (v : Arr K) (hv : v.size = m) (inv : Bool) :
    ∃ A', scaleRow A v inv = some A' ∧
      IsM A' m ns nd fun i j => (if inv then (v.get i)⁻¹ else v.get i) * g i j := by
  unfold scaleRow
  obtain ⟨d, h1, h2, h3⟩ := C58_scaleRow hA.de v hv inv
  rw [hA.hm, if_pos hv, h1]
  refine ⟨_, rfl, rfl, hA.hs, ?_, fun i hi j hj => ?_, h3⟩
  · intro e he
    obtain ⟨e', he', rfl⟩ := List.mem_map.1 he
    exact hA.rng e' he'
  · show entry (Sparse.scaleRow A.es v.get inv) i j = _
    rw [C27_scaleRow, hA.sp i hi j hj]
    cases inv <;> simp [mul_comm]

/-- **C60, setting to a constant.** The dense columns and every stored position of the sparse columns get
the constant; with `c = 0` the matrix is zero. -/
theorem C60_setToConstant (hA : IsM A m ns nd g) (hd : Distinct A.es) (c : K) :
    ∃ A', setToConstant A c = some A' ∧
      IsM A' m ns nd fun i j => if ns ≤ j ∨ ∃ e ∈ A.es, e.r = i ∧ e.c = j then c else 0 := by
  unfold setToConstant
  obtain ⟨d, h1, h2, h3⟩ := C58_setToConstant hA.de c
  rw [h1]
  refine ⟨_, rfl, hA.hm, hA.hs, ?_, fun i hi j hj => ?_, h3.ok, h3.hm, h3.hn, fun i hi j hj => ?_⟩
  · intro e he
    obtain ⟨e', he', rfl⟩ := List.mem_map.1 he
    exact hA.rng e' he'
  · show entry (A.es.map fun e => { e with v := c }) i j = _
    simp only [show ¬ ns ≤ j by omega, false_or]
    clear hA h1
    revert hd
    generalize A.es = es
    intro hd
    induction es with
    | nil => simp
    | cons e es ih =>
      obtain ⟨d1, d2⟩ := List.pairwise_cons.1 hd
      rw [List.map_cons, entry_cons, ih d2]
      simp only
      by_cases h : e.r = i ∧ e.c = j
      · have h1 : ¬ ∃ f ∈ es, f.r = i ∧ f.c = j := by
          rintro ⟨f, hf, hr, hc⟩
          exact d1 f hf ⟨h.1.trans hr.symm, h.2.trans hc.symm⟩
        have h2 : ∃ f ∈ e :: es, f.r = i ∧ f.c = j := ⟨e, by simp, h⟩
        rw [if_pos h, if_neg h1, if_pos h2, add_zero]
      · rw [if_neg h, zero_add]
        congr 1
        refine propext ⟨?_, ?_⟩
        · rintro ⟨f, hf, h'⟩; exact ⟨f, by simp [hf], h'⟩
        · rintro ⟨f, hf, h'⟩
          rcases List.mem_cons.1 hf with rfl | hf
          · exact absurd h' h
          · exact ⟨f, hf, h'⟩
  · rw [h3.val i hi j hj, if_pos (Or.inl (by omega))]

theorem C60_setToZero (hA : IsM A m ns nd g) (hd : Distinct A.es) :
    ∃ A', setToConstant A 0 = some A' ∧ IsM A' m ns nd fun _ _ => 0 := by
  obtain ⟨A', h1, h2⟩ := C60_setToConstant hA hd 0
  exact ⟨A', h1, h2.hm, h2.hs, h2.rng, fun i hi j hj => by rw [h2.sp i hi j hj, ite_self],
    h2.de.ok, h2.de.hm, h2.de.hn, fun i hi j hj => by rw [h2.de.val i hi j hj, ite_self]⟩

/-- **C60, copies.** A copy holds the same matrix. -/
theorem C60_newCopy (hA : IsM A m ns nd g) (junk : ℕ → K) :
    ∃ A', newCopy A junk = some A' ∧ IsM A' m ns nd g := by
  unfold newCopy
  obtain ⟨d, h1, h2, h3⟩ := C58_newCopy hA.de junk
  rw [h1]
  exact ⟨_, rfl, hA.hm, hA.hs, hA.rng, hA.sp, h3⟩

theorem pick_mem {src : List (Ent K)} {f : ℕ → ℕ} {a n : ℕ} {e : Ent K}
    (h : e ∈ pickRows src f (fun a => a) a n) : e.r < a + n ∧ ∃ e' ∈ src, e'.c = e.c := by
  induction n generalizing a with
  | zero => simp [pickRows] at h
  | succ n ih =>
    rw [pickRows_succ, List.mem_append] at h
    rcases h with h | h
    · obtain ⟨e', he', rfl⟩ := List.mem_map.1 h
      exact ⟨by simp only; omega, e', (List.mem_filter.1 he').1, rfl⟩
    · obtain ⟨h1, h2⟩ := ih h
      exact ⟨by omega, h2⟩

theorem filter_or (l : List (Ent K)) (p q : Ent K → Bool) (h : ∀ e, ¬ (p e = true ∧ q e = true)) :
    (l.filter fun e => p e || q e).length = (l.filter p).length + (l.filter q).length := by
  induction l with
  | nil => rfl
  | cons e l ih =>
    have := h e
    rw [List.filter_cons, List.filter_cons, List.filter_cons]
    cases hp : p e <;> cases hq : q e <;> simp_all <;> omega

theorem pick_length (src : List (Ent K)) (f : ℕ → ℕ) (hf : StrictMono f) (a n : ℕ) :
    (pickRows src f (fun a => a) a n).length =
      (src.filter fun e => decide (∃ i < a + n, a ≤ i ∧ f i = e.r)).length := by
  induction n generalizing a with
  | zero =>
    rw [List.filter_eq_nil_iff.2 fun e _ => by
      rw [decide_eq_true_eq]; rintro ⟨i, h2, h1, -⟩; omega]
    simp [pickRows]
  | succ n ih =>
    rw [pickRows_succ, List.length_append, List.length_map, ih, ← filter_or]
    · congr 1
      refine List.filter_congr fun e _ => ?_
      rw [Bool.eq_iff_iff, Bool.or_eq_true, decide_eq_true_eq, decide_eq_true_eq, decide_eq_true_eq]
      constructor
      · rintro (h | ⟨i, h1, h2, h3⟩)
        · exact ⟨a, by omega, le_rfl, h.symm⟩
        · exact ⟨i, by omega, by omega, h3⟩
      · rintro ⟨i, h1, h2, h3⟩
        by_cases hi : i = a
        · left; rw [← h3, hi]
        · right; exact ⟨i, by omega, by omega, h3⟩
    · intro e
      rw [decide_eq_true_eq, decide_eq_true_eq]
      rintro ⟨h, i, h1, h2, h3⟩
      have := hf.injective (h3.trans h)
      omega

/-- **C60, selected rows.** A matrix with room for exactly the selected entries, filled from a row-sorted
source through strictly increasing row numbers, holds the selected rows. -/
theorem C60_copyRowsFrom {f : ℕ → ℕ → K} (hA : IsM A m ns nd f) (hB : IsM B k ns nd g) (idx : ℕ → ℕ)
    (hidx : StrictMono idx) (hk : ∀ i < m, idx i < k) (hmk : m ≤ k) (hs : RowSorted B.es)
    (hnz : A.es.length = (B.es.filter fun e => decide (∃ i < m, idx i = e.r)).length) :
    ∃ A', copyRowsFrom A B idx m = some A' ∧ IsM A' m ns nd fun i j => g (idx i) j := by
  have hl : A.es.length = (pickRows B.es idx (fun a => a) 0 m).length := by
    rw [hnz, pick_length B.es idx hidx]
    simp
  obtain ⟨st, h1, h2⟩ := copyRowsLoop_eq A.es.length idx (fun a => a) hidx 0 m B.es hs
    (fun k => A.es.getD k ⟨0, 0, 0⟩) 0 (by omega)
  have h3 : Sparse.copyRowsFrom A.es.length (fun k => A.es.getD k ⟨0, 0, 0⟩) B.es idx m = some st := by
    rw [Sparse.copyRowsFrom, h1]
    simp [← hl]
  rw [zero_add, ← hl] at h2
  have h4 : toList st A.es.length = pickRows B.es idx (fun a => a) 0 m := by
    rw [h2]; simp [Sparse.toList]
  obtain ⟨d, h5, h6, h7⟩ := C58_copyRowsIdx hA.de hB.de idx hmk hk
  unfold copyRowsFrom spCopyRowsFrom
  rw [hA.hm, hA.hs, hB.hm, hB.hs, if_pos ⟨rfl, by rw [hnz]; exact List.length_filter_le _ _, rfl, hmk⟩, h3,
    Option.map_some, Option.bind_some, h5]
  refine ⟨_, rfl, rfl, rfl, ?_, fun i hi j hj => ?_, h7⟩
  · show InRange m ns (Sparse.toList st A.es.length)
    rw [h4]
    intro e he
    obtain ⟨r1, e', he', r2⟩ := pick_mem he
    exact ⟨by omega, by rw [← r2]; exact (hB.rng e' he').2⟩
  · show entry (Sparse.toList st A.es.length) i j = _
    rw [h4]
    have := entry_pickRows B.es idx 0 0 m i j
    simp only [zero_add] at this
    rw [this, if_pos (by omega)]
    simp only [Nat.sub_zero, zero_add]
    exact hB.sp _ (hk i hi) j hj

theorem frRows_mem {p : ℕ} {es : List (Ent K)} {r0 cp cn q : ℕ} (hq : ∀ e ∈ es, e.c < q) {e : Ent K}
    (he : e ∈ frRows p es r0 cp cn) :
    r0 ≤ e.r ∧ e.r < r0 + p ∧ (e.c < q ∨ (cp ≤ e.c ∧ e.c < cp + p) ∨ (cn ≤ e.c ∧ e.c < cn + p)) := by
  unfold frRows at he
  obtain ⟨i, hi, he⟩ := List.mem_flatMap.1 he
  have hi := List.mem_range.1 hi
  rcases List.mem_append.1 he with he | he
  · obtain ⟨e', he', rfl⟩ := List.mem_map.1 he
    have : e' ∈ es := List.mem_of_mem_drop (List.mem_of_mem_take he')
    exact ⟨by simp only; omega, by simp only; omega, Or.inl (hq e' this)⟩
  · simp only [List.mem_cons, List.not_mem_nil, or_false] at he
    rcases he with rfl | rfl
    · exact ⟨by simp only; omega, by simp only; omega, Or.inr (Or.inl ⟨by simp only; omega, by simp only; omega⟩)⟩
    · exact ⟨by simp only; omega, by simp only; omega, Or.inr (Or.inr ⟨by simp only; omega, by simp only; omega⟩)⟩

/-- **C60, Jacobian of the feasibility problem.** -/
theorem C60_setJacFR {f : ℕ → ℕ → K} {gc gd : ℕ → ℕ → K} {mc md : ℕ} {Jc Jd : Mat K}
    (hA : IsM A (mc + md) (ns + 2 * mc + 2 * md) nd f) (hc : IsM Jc mc ns nd gc) (hd : IsM Jd md ns nd gd)
    (sc : RowSorted Jc.es) (sd : RowSorted Jd.es)
    (hnz : A.es.length = Jc.es.length + 2 * mc + (Jd.es.length + 2 * md)) :
    ∃ A', setJacFR A Jc Jd = some A' ∧
      IsM A' (mc + md) (ns + 2 * mc + 2 * md) nd fun i j =>
        if j < ns then (if i < mc then gc i j else gd (i - mc) j)
        else if j < ns + 2 * mc + 2 * md then
          (if i < mc then (if j = ns + i then -1 else if j = ns + mc + i then 1 else 0)
           else if j = ns + 2 * mc + (i - mc) then -1 else if j = ns + 2 * mc + md + (i - mc) then 1 else 0)
        else if i < mc then gc i (j - 2 * mc - 2 * md) else gd (i - mc) (j - 2 * mc - 2 * md) := by
  obtain ⟨l, l1, l2, l3, l4⟩ := C27_setJacFR ns mc md Jc.es Jd.es sc sd hc.rng hd.rng
  have lr : InRange (mc + md) (ns + 2 * mc + 2 * md) l := by
    have hl : l = frRows mc Jc.es 0 ns (ns + mc) ++ frRows md Jd.es mc (ns + 2 * mc) (ns + 2 * mc + md) := by
      have := l1
      unfold Sparse.setJacFR at this
      split_ifs at this
      simp only at this
      split_ifs at this
      exact (Option.some.inj this).symm
    rw [hl]
    intro e he
    rcases List.mem_append.1 he with he | he
    · obtain ⟨h1, h2, h3⟩ := frRows_mem (fun e he => (hc.rng e he).2) he
      omega
    · obtain ⟨h1, h2, h3⟩ := frRows_mem (fun e he => (hd.rng e he).2) he
      omega
  obtain ⟨d1, h1, h2, h3⟩ := C58_copyRows hA.de hc.de mc 0 (by omega) le_rfl
  obtain ⟨d2, h4, h5, h6⟩ := C58_copyRows h3 hd.de md mc le_rfl le_rfl
  unfold setJacFR
  rw [hc.hs, hd.hs, hc.hm, hd.hm, if_pos rfl, hnz, l1, Option.bind_some, hc.de.hn, hd.de.hn, hA.de.hn,
    if_pos ⟨rfl, rfl⟩, hc.de.hm, h1, Option.bind_some, hd.de.hm, h4]
  refine ⟨_, rfl, hA.hm, hA.hs, lr, fun i hi j hj => ?_, h6.ok, h6.hm, h6.hn, fun i hi j hj => ?_⟩
  · show entry l i j = _
    by_cases hic : i < mc
    · rw [l3 i j hic]
      by_cases hjs : j < ns
      · rw [if_pos hjs, if_pos hjs, if_pos hic, hc.sp i hic j hjs]
      · rw [if_neg hjs, if_neg hjs, if_pos hj, if_pos hic]
    · have := l4 (i - mc) j (by omega)
      rw [show mc + (i - mc) = i by omega] at this
      rw [this]
      by_cases hjs : j < ns
      · rw [if_pos hjs, if_pos hjs, if_neg hic, hd.sp _ (by omega) j hjs]
      · rw [if_neg hjs, if_neg hjs, if_pos hj, if_neg hic]
  · rw [h6.val i hi j hj, if_neg (by omega : ¬ ns + 2 * mc + 2 * md + j < ns),
      if_neg (by omega : ¬ ns + 2 * mc + 2 * md + j < ns + 2 * mc + 2 * md),
      show ns + 2 * mc + 2 * md + j - 2 * mc - 2 * md = ns + j by omega]
    by_cases hic : i < mc
    · rw [if_neg (by omega), if_pos (by omega), if_pos hic, Nat.sub_zero]
    · rw [if_pos (by omega), if_neg hic]

/-! ## The whole matrix -/

theorem entry_val {es : List (Ent K)} (hd : Distinct es) {e : Ent K} (he : e ∈ es) :
    entry es e.r e.c = e.v := by
  induction es with
  | nil => simp at he
  | cons a es ih =>
    obtain ⟨d1, d2⟩ := List.pairwise_cons.1 hd
    rw [entry_cons]
    rcases List.mem_cons.1 he with rfl | he
    · rw [if_pos ⟨rfl, rfl⟩]
      have : entry es e.r e.c = 0 := by
        unfold entry
        refine List.sum_eq_zero fun x hx => ?_
        obtain ⟨b, hb, rfl⟩ := List.mem_map.1 hx
        rw [if_neg]
        rintro ⟨h1, h2⟩
        exact d1 b hb ⟨h1.symm, h2.symm⟩
      rw [this, add_zero]
    · rw [if_neg (d1 e he), zero_add, ih d2 he]

theorem spMaxAbs_spec (es : List (Ent K)) : ∃ v, spMaxAbs es = some v ∧
    (∀ e ∈ es, |e.v| ≤ v) ∧ (v = 0 ∨ ∃ e ∈ es, v = |e.v|) := by
  unfold spMaxAbs
  obtain ⟨v, h1, h2⟩ := dlange_spec 1 es.length ⟨es.length, fun k => (es.getD k ⟨0, 0, 0⟩).v⟩ 0 1
    (by simp only; omega)
  refine ⟨v, h1, fun e he => ?_, ?_⟩
  · obtain ⟨i, hi, rfl⟩ := List.mem_iff_getElem.1 he
    have := h2.1 i hi 0 (by omega)
    simpa [List.getD_eq_getElem?_getD, hi] using this
  · rcases h2.2 with h | ⟨i, hi, j, hj, h⟩
    · exact Or.inl h.1
    · refine Or.inr ⟨es[i], List.getElem_mem hi, ?_⟩
      have hj0 : j = 0 := by omega
      subst hj0
      simpa [List.getD_eq_getElem?_getD, hi] using h

/-- **C60, largest magnitude.** If no position is stored twice, the result is the largest magnitude of
the whole matrix. -/
theorem C60_maxAbs (hA : IsM A m ns nd g) (hd : Distinct A.es) :
    ∃ v, maxAbs A = some v ∧ (∀ i < m, ∀ j < ns + nd, |g i j| ≤ v) ∧
      (v = 0 ∨ ∃ i < m, ∃ j < ns + nd, v = |g i j|) := by
  unfold maxAbs
  obtain ⟨a, h1, h2, h3⟩ := spMaxAbs_spec A.es
  obtain ⟨b, h4, h5⟩ := C58_maxAbs hA.de
  rw [h1, Option.bind_some, h4]
  have ha : 0 ≤ a := by
    rcases h3 with h | ⟨e, -, h⟩ <;> rw [h]
    exact abs_nonneg _
  refine ⟨_, rfl, fun i hi j hj => ?_, ?_⟩
  · by_cases hjs : j < ns
    · refine le_max_of_le_left ?_
      rw [← hA.sp i hi j hjs]
      by_cases he : ∃ e ∈ A.es, e.r = i ∧ e.c = j
      · obtain ⟨e, he, rfl, rfl⟩ := he
        rw [entry_val hd he]
        exact h2 e he
      · have : entry A.es i j = 0 := by
          unfold entry
          refine List.sum_eq_zero fun x hx => ?_
          obtain ⟨e, he', rfl⟩ := List.mem_map.1 hx
          exact if_neg fun h => he ⟨e, he', h⟩
        rw [this, abs_zero]
        exact ha
    · refine le_max_of_le_right ?_
      have := h5.1 i hi (j - ns) (by omega)
      simpa [show ns + (j - ns) = j by omega] using this
  · show max a b = 0 ∨ ∃ i < m, ∃ j < ns + nd, max a b = |g i j|
    rcases max_choice a b with h | h <;> rw [h]
    · rcases h3 with h | ⟨e, he, h⟩
      · exact Or.inl h
      · obtain ⟨r1, r2⟩ := hA.rng e he
        exact Or.inr ⟨e.r, r1, e.c, by omega, by rw [← hA.sp _ r1 _ r2, entry_val hd he]; exact h⟩
    · rcases h5.2 with h | ⟨i, hi, j, hj, h⟩
      · exact Or.inl h.1
      · exact Or.inr ⟨i, hi, ns + j, by omega, h⟩

/-! ## Operations that always fail -/

/-- **C60 fails: sums and copies into an existing matrix are not available**, for rectangular and for
symmetric matrices: the sparse part stops on an assertion whatever the arguments. -/
theorem C60_addMatrix_copyFrom_false (A X : Mat K) (alpha : K) :
    addMatrix A alpha X = none ∧ copyFrom A X = none := ⟨rfl, rfl⟩

/-- **C60 fails: rows cannot be copied between symmetric matrices.** -/
theorem C60_symCopyRowsFrom_false (A B : Mat K) (idx : ℕ → ℕ) (n : ℕ) :
    symCopyRowsFrom A B idx n = none := rfl

/-! ## Symmetric matrices -/

/-- **C60, symmetric product with a vector.** -/
theorem C60_symTimesVec (hA : IsS A ns nd g) (beta alpha : K) (y v : Arr K) (hy : y.size = ns + nd)
    (hv : v.size = ns + nd) :
    ∃ y', symTimesVec A beta y alpha v = some y' ∧ y'.size = ns + nd ∧
      ∀ i < ns + nd, y'.get i = beta * y.get i + alpha * ∑ j ∈ range (ns + nd), g i j * v.get j := by
  unfold symTimesVec
  rw [hA.hs, hA.de.hm, hA.de.hn, if_pos ⟨hv, hy⟩, part_some (by omega), Option.bind_some,
    onPart_some (b := ofVec (p := ns) fun i => beta * y.get (0 + i) +
      alpha * ∑ j : Fin ns, symEntry A.es i j * v.get (0 + j)) (by omega) (by
        rw [C27_symTimesVec A.es beta alpha _ _ hA.rng]; rfl),
    Option.bind_some, part_some (by omega), Option.bind_some]
  obtain ⟨y2, h1, h2, h3⟩ := C58_timesVec hA.de beta alpha
    (⟨nd, fun k => if 0 ≤ ns + k ∧ ns + k < 0 + ns then (ofVec (p := ns) fun i => beta * y.get (0 + i) +
      alpha * ∑ j : Fin ns, symEntry A.es i j * v.get (0 + j)).get (ns + k - 0) else y.get (ns + k)⟩ : Arr K)
    ⟨nd, fun k => v.get (ns + k)⟩ rfl rfl
  rw [onPart_some (f := fun y => DenseMat.timesVec A.de beta y alpha ⟨nd, fun k => v.get (ns + k)⟩)
    (by show ns + nd ≤ y.size; omega) h1]
  refine ⟨_, rfl, hy, fun i hi => ?_⟩
  rw [sum_split]
  by_cases his : i < ns
  · rw [Finset.sum_eq_zero (s := range nd) fun j hj => by
      rw [hA.z1 i his j (Finset.mem_range.1 hj), zero_mul], add_zero]
    simp only [zero_add, Nat.sub_zero, zero_le, true_and, his, if_true, show ¬ ns ≤ i by omega, false_and,
      if_false, ofVec, dif_pos]
    have : ∀ j : Fin ns, symEntry A.es i j = g i j := fun j => hA.sp i his j j.2
    simp only [this]
  · rw [Finset.sum_eq_zero (s := univ) fun j _ => by
      have := hA.z2 (i - ns) (by omega) j j.2
      rw [show ns + (i - ns) = i by omega] at this
      rw [this, zero_mul], zero_add]
    simp only [show ns ≤ i by omega, hi, and_self, if_true]
    rw [h3 (i - ns) (by omega)]
    simp only [zero_add, show ns + (i - ns) = i by omega, his, and_false, if_false]

/-- **C60, adding a symmetric matrix to the upper triangle of a dense symmetric matrix.** -/
theorem C60_symAddUpper (hA : IsS A ns nd g) (hW : Is W k k w) (d0 : ℕ) (alpha : K)
    (hd : d0 + (ns + nd) ≤ k) :
    ∃ W', symAddUpper A d0 alpha W = some W' ∧ W'.cap = W.cap ∧
      Is W' k k fun i j => w i j +
        if d0 ≤ i ∧ i ≤ j ∧ j < d0 + (ns + nd) then alpha * g (i - d0) (j - d0) else 0 := by
  unfold symAddUpper
  rw [hA.hs, hA.hm, hW.hm, hW.hn, if_pos ⟨rfl, by omega, by omega, rfl⟩]
  obtain ⟨W1, h1, h2, h3⟩ := onDense_is (f := fun w => Sparse.symAddUpper k A.es d0 alpha w) hW
    (C27_symAddUpper k A.es d0 alpha hA.rng hA.up (by omega) _)
  rw [h1, Option.bind_some]
  obtain ⟨W2, h4, h5, h6⟩ := C58_addUpperTo hA.de h3 (d0 + ns) alpha (by omega)
  refine ⟨W2, h4, by rw [h5, h2], h6.ok, h6.hm, h6.hn, fun i hi j hj => ?_⟩
  rw [h6.val i hi j hj]
  have hv := hW.val i hi j hj
  rw [DMat.at, hW.hn] at hv
  simp only [hv]
  rw [add_assoc]
  congr 1
  have out : ∀ a b, ¬ (a < ns ∧ b < ns) → symEntry A.es a b = 0 := by
    intro a b h
    unfold symEntry
    refine List.sum_eq_zero fun x hx => ?_
    obtain ⟨e, he, rfl⟩ := List.mem_map.1 hx
    have := hA.rng e he
    rw [if_neg (by omega), if_neg (by omega), add_zero]
  by_cases h0 : d0 ≤ i ∧ i ≤ j ∧ j < d0 + (ns + nd)
  · rw [if_pos ⟨h0.1, h0.2.1⟩, if_pos h0]
    by_cases hjs : j - d0 < ns
    · rw [if_neg (by omega), add_zero, hA.sp _ (by omega) _ hjs]
    · rw [out _ _ (by omega), mul_zero, zero_add]
      by_cases his : i - d0 < ns
      · rw [if_neg (by omega)]
        have := hA.z1 (i - d0) his (j - d0 - ns) (by omega)
        rw [show ns + (j - d0 - ns) = j - d0 by omega] at this
        rw [this, mul_zero]
      · rw [if_pos (by omega), show ns + (i - (d0 + ns)) = i - d0 by omega,
          show ns + (j - (d0 + ns)) = j - d0 by omega]
  · rw [if_neg h0, if_neg (by omega : ¬ (d0 + ns ≤ i ∧ i ≤ j ∧ j < d0 + ns + nd)), add_zero]
    split_ifs with h
    · rw [out _ _ (by omega), mul_zero]
    · rfl

/-- **C60 fails: row maxima and row scaling of symmetric matrices.** With a vector of the size of the matrix
both operations stop on an assertion, unless one of the blocks is empty. -/
theorem C60_sym_rows_false (hA : IsS A ns nd g) (h : 0 < ns + nd) (v : Arr K) (hv : v.size = ns + nd)
    (inv : Bool) : rowMaxAbs A v = none ∧ scaleRow A v inv = none := by
  unfold rowMaxAbs scaleRow
  rw [hA.hm, hv]
  by_cases h0 : ns + nd = ns
  · rw [if_pos h0, if_pos h0]
    unfold DenseMat.rowMaxAbs DenseMat.scaleRow
    rw [hA.de.hm, hv, if_neg (by omega), if_neg (by omega)]
    exact ⟨rfl, rfl⟩
  · rw [if_neg h0, if_neg h0]
    exact ⟨rfl, rfl⟩

/-! ## Concrete matrices -/

/-- `[1 0 5; 2 3 6]`, the last column dense. -/
def exA : Mat ℚ :=
  ⟨2, 2, [⟨0, 0, 1⟩, ⟨1, 0, 2⟩, ⟨1, 1, 3⟩], ⟨2, 1, 2, fun k => if k = 0 then 5 else 6, false⟩⟩

def exG (i j : ℕ) : ℚ :=
  if i = 0 then (if j = 0 then 1 else if j = 1 then 0 else 5) else if j = 0 then 2 else if j = 1 then 3 else 6

theorem exA_is : IsM exA 2 2 1 exG :=
  ⟨rfl, rfl, by unfold InRange; decide +kernel, by decide +kernel,
    ⟨by decide +kernel, by decide +kernel⟩, rfl, rfl, by decide +kernel⟩

example : Distinct exA.es ∧ Sorted exA.es ∧ RowSorted exA.es := by
  unfold Distinct Sorted RowSorted; decide +kernel

example : (timesVec exA 2 ⟨2, fun _ => 1⟩ 3 ⟨3, fun k => (k : ℚ) + 1⟩).map (fun y => (y.get 0, y.get 1)) =
    some (2 + 3 * 16, 2 + 3 * 26) := by decide +kernel

example : (transTimesVec exA 2 ⟨3, fun _ => 1⟩ 3 ⟨2, fun k => (k : ℚ) + 1⟩).map
    (fun y => (y.get 0, y.get 1, y.get 2)) = some (17, 20, 53) := by decide +kernel

-- twice `A*A'` is asked for, `A*A'` is returned
example : (timesMatTrans exA 0 ⟨2, 2, 2, fun _ => 0, false⟩ 2 exA).map (fun W => (W.at 0 0, W.at 0 1, W.at 1 1)) =
    some (26, 32, 49) := by decide +kernel

example : (maxAbs exA) = some 6 := by decide +kernel
example : (rowMaxAbs exA ⟨2, fun _ => 0⟩).map (fun y => (y.get 0, y.get 1)) = some (5, 6) := by decide +kernel

-- the hypotheses of `C60_copyRowsFrom`: the second row
example : StrictMono (fun i : ℕ => i + 1) ∧
    ((exA.es.filter fun e => decide (∃ i < 1, i + 1 = e.r)).length = 2) :=
  ⟨fun _ _ h => by simpa using h, by decide +kernel⟩

example : (copyRowsFrom ⟨1, 2, [⟨7, 7, 7⟩, ⟨7, 7, 7⟩], ⟨1, 1, 1, fun _ => 9, false⟩⟩ exA (fun i => i + 1) 1).map
    (fun A => (A.es.map fun e => (e.r, e.c, e.v), A.de.at 0 0)) =
    some ([(0, 0, 2), (0, 1, 3)], 6) := by decide +kernel

/-- `diag([1 2; 2 0], [4])`. -/
def exS : Mat ℚ := ⟨2, 2, [⟨0, 0, 1⟩, ⟨0, 1, 2⟩], ⟨1, 1, 1, fun _ => 4, false⟩⟩

def exSG (i j : ℕ) : ℚ :=
  if i = 2 ∧ j = 2 then 4 else if i = 0 ∧ j = 0 then 1 else if i < 2 ∧ j < 2 ∧ i ≠ j then 2 else 0

theorem exS_is : IsS exS 2 1 exSG :=
  ⟨rfl, rfl, by unfold InRange; decide +kernel, by decide +kernel, by decide +kernel,
    ⟨⟨by decide +kernel, by decide +kernel⟩, rfl, rfl, by decide +kernel⟩, by decide +kernel, by decide +kernel⟩

example : (symTimesVec exS 0 ⟨3, fun _ => 1⟩ 1 ⟨3, fun k => (k : ℚ) + 1⟩).map
    (fun y => (y.get 0, y.get 1, y.get 2)) = some (5, 2, 12) := by decide +kernel

example : (symAddUpper exS 1 2 ⟨4, 4, 4, fun _ => 0, false⟩).map
    (fun W => (W.at 1 1, W.at 1 2, W.at 2 1, W.at 3 3)) = some (2, 4, 0, 8) := by decide +kernel

end Hiop.Mds
