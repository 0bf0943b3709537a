import Verif.Fr.Model
import Verif.Sparse.Assembly
import Verif.Vec.Lemmas
import Mathlib.Analysis.Calculus.Deriv.Add
import Mathlib.Analysis.Calculus.Deriv.Mul
import Mathlib.Analysis.Calculus.Deriv.Pow

/-!
# Lemmas about the layouts and the restoration Hessian
-/

set_option linter.unusedSimpArgs false
set_option linter.unusedSectionVars false

namespace Hiop.Fr

open Hiop.Vec Hiop.Kkt Hiop.QN Hiop.Iterate Hiop.Barrier Hiop.Sparse Finset

variable {n mc m ns nd : ℕ}

/-- The two layouts used by the three classes. -/
inductive IsLayout : ∀ {n mc m : ℕ}, Layout n mc m → Prop
  | sparse (n mc m : ℕ) : IsLayout (sparseL n mc m)
  | mds (ns nd mc m : ℕ) : IsLayout (mdsL ns nd mc m)

/-- The positions of the base variables, and what the copies do in terms of them. -/
structure Places (L : Layout n mc m) where
  ix : Fin n → ℕ
  inj : Function.Injective ix
  lt : ∀ i, ix i < nTot n mc m
  get : ∀ x i, L.getX x i = x (ix i)
  put : ∀ v buf i, L.putX v buf (ix i) = v i
  putOut : ∀ v buf k, (∀ i, ix i ≠ k) → L.putX v buf k = buf k
  out : ∀ i, ix i < L.pe ∨ L.ni + m ≤ ix i
  hne : L.ne = L.pe + mc
  hpi : L.pi = L.ne + mc
  hni : L.ni = L.pi + m
  le : L.ni + m ≤ nTot n mc m
  cover : ∀ k, k < nTot n mc m → (k < L.pe ∨ L.ni + m ≤ k) → ∃ i, ix i = k
  sum : ∀ g : ℕ → ℝ, ∑ k ∈ range (nTot n mc m), g k =
    ∑ i, g (ix i) + ∑ i : Fin mc, g (L.pe + i) + ∑ i : Fin mc, g (L.ne + i)
      + ∑ i : Fin m, g (L.pi + i) + ∑ i : Fin m, g (L.ni + i)

theorem sum_fin_off (g : ℕ → ℝ) (a q : ℕ) :
    ∑ k ∈ range q, g (a + k) = ∑ i : Fin q, g (a + i) := Finset.sum_range fun k => g (a + k)

/-- Places of `[x pe ne pi ni]`. -/
def sparsePlaces (n mc m : ℕ) : Places (sparseL n mc m) where
  ix i := i
  inj := Fin.val_injective
  lt i := by have := i.2; simp only [nTot]; omega
  get x i := by simp [sparseL, copyOut]
  put v buf i := by simpa [sparseL] using copyTo_in v buf 0 i
  putOut v buf k h := by
    refine copyTo_out v buf 0 k (Or.inr ?_)
    by_contra hc
    exact h ⟨k, by omega⟩ rfl
  out i := Or.inl i.2
  hne := rfl
  hpi := rfl
  hni := rfl
  le := by simp only [sparseL, nTot]; omega
  cover k hk h := by
    simp only [sparseL, nTot] at h hk
    exact ⟨⟨k, by omega⟩, rfl⟩
  sum g := by
    have e : nTot n mc m = n + mc + mc + m + m := by simp only [nTot]; omega
    rw [e]
    simp only [Finset.sum_range_add, sparseL]
    rw [Finset.sum_range, sum_fin_off, sum_fin_off, sum_fin_off, sum_fin_off]

/-- Places of `[xsp pe ne pi ni xde]`. -/
def mdsPlaces (ns nd mc m : ℕ) : Places (mdsL ns nd mc m) where
  ix := Fin.append (fun i : Fin ns => (i : ℕ)) (fun i : Fin nd => ns + mc + mc + m + m + (i : ℕ))
  inj i j h := by
    cases i using Fin.addCases <;> cases j using Fin.addCases <;>
      simp only [Fin.append_left, Fin.append_right] at h
    · congr 1; exact Fin.ext h
    · rename_i a b; have := a.2; omega
    · rename_i a b; have := b.2; omega
    · congr 1; apply Fin.ext; omega
  lt i := by
    cases i using Fin.addCases <;> simp only [Fin.append_left, Fin.append_right, nTot] <;> omega
  get x i := by
    cases i using Fin.addCases <;> simp [mdsL, Fin.append_left, Fin.append_right, copyOut]
  put v buf i := by
    cases i using Fin.addCases with
    | left i =>
      have := i.2
      simp only [Fin.append_left, mdsL]
      rw [copyTo_out _ _ _ _ (Or.inl (by omega))]
      simpa using copyTo_in (fun i => v (Fin.castAdd nd i)) buf 0 i
    | right i =>
      simp only [Fin.append_right, mdsL]
      exact copyTo_in (fun i => v (Fin.natAdd ns i)) _ _ i
  putOut v buf k h := by
    have h1 : ns ≤ k := by
      by_contra hc
      exact h (Fin.castAdd nd ⟨k, by omega⟩) (by rw [Fin.append_left])
    have h2 : k < ns + mc + mc + m + m ∨ ns + mc + mc + m + m + nd ≤ k := by
      by_contra hc
      refine h (Fin.natAdd ns ⟨k - (ns + mc + mc + m + m), by omega⟩) ?_
      simp only [Fin.append_right]; omega
    simp only [mdsL]
    rw [copyTo_out _ _ _ _ h2, copyTo_out _ _ _ _ (Or.inr (by omega))]
  out i := by
    cases i using Fin.addCases with
    | left i => left; simp [mdsL, Fin.append_left]
    | right i => right; simp only [mdsL, Fin.append_right]; omega
  hne := rfl
  hpi := rfl
  hni := rfl
  le := by simp only [mdsL, nTot]; omega
  cover k hk h := by
    simp only [mdsL, nTot] at h hk
    rcases h with h | h
    · exact ⟨Fin.castAdd nd ⟨k, h⟩, by rw [Fin.append_left]⟩
    · refine ⟨Fin.natAdd ns ⟨k - (ns + mc + mc + m + m), by omega⟩, ?_⟩
      simp only [Fin.append_right]; omega
  sum g := by
    have e : nTot (ns + nd) mc m = ns + mc + mc + m + m + nd := by simp only [nTot]; omega
    rw [e]
    simp only [Finset.sum_range_add, mdsL, Fin.sum_univ_add, Fin.append_left, Fin.append_right]
    rw [Finset.sum_range, sum_fin_off, sum_fin_off, sum_fin_off, sum_fin_off, sum_fin_off]
    ring

theorem IsLayout.places {L : Layout n mc m} (h : IsLayout L) : Nonempty (Places L) := by
  cases h with
  | sparse => exact ⟨sparsePlaces _ _ _⟩
  | mds => exact ⟨mdsPlaces _ _ _ _⟩

/-! ## Blocks written -/

section Blocks
variable {L : Layout n mc m} (pl : Places L) (pe ne : RVec ℝ mc) (pi ni : RVec ℝ m) (buf : ℕ → ℝ)
include pl

theorem putPN_x (i : Fin n) : putPN L pe ne pi ni buf (pl.ix i) = buf (pl.ix i) := by
  have h1 := pl.out i; have h2 := pl.hne; have h3 := pl.hpi; have h4 := pl.hni
  unfold putPN
  rw [copyTo_out _ _ _ _ (by omega), copyTo_out _ _ _ _ (by omega), copyTo_out _ _ _ _ (by omega),
    copyTo_out _ _ _ _ (by omega)]

theorem putPN_pe (i : Fin mc) : putPN L pe ne pi ni buf (L.pe + i) = pe i := by
  have h1 := i.2; have h2 := pl.hne; have h3 := pl.hpi; have h4 := pl.hni
  unfold putPN
  rw [copyTo_out _ _ _ _ (by omega), copyTo_out _ _ _ _ (by omega), copyTo_out _ _ _ _ (by omega),
    copyTo_in]

theorem putPN_ne (i : Fin mc) : putPN L pe ne pi ni buf (L.ne + i) = ne i := by
  have h1 := i.2; have h2 := pl.hne; have h3 := pl.hpi; have h4 := pl.hni
  unfold putPN
  rw [copyTo_out _ _ _ _ (by omega), copyTo_out _ _ _ _ (by omega), copyTo_in]

theorem putPN_pi (i : Fin m) : putPN L pe ne pi ni buf (L.pi + i) = pi i := by
  have h1 := i.2; have h2 := pl.hne; have h3 := pl.hpi; have h4 := pl.hni
  unfold putPN
  rw [copyTo_out _ _ _ _ (by omega), copyTo_in]

theorem putPN_ni (i : Fin m) : putPN L pe ne pi ni buf (L.ni + i) = ni i := by
  unfold putPN
  rw [copyTo_in]

theorem getX_putPN : L.getX (putPN L pe ne pi ni buf) = L.getX buf := by
  funext i; rw [pl.get, pl.get, putPN_x pl]

theorem getX_putX (v : RVec ℝ n) : L.getX (L.putX v buf) = v := by
  funext i; rw [pl.get, pl.put]

theorem putX_block (v : RVec ℝ n) (k : ℕ) (h1 : L.pe ≤ k) (h2 : k < L.ni + m) :
    L.putX v buf k = buf k :=
  pl.putOut v buf k fun i e => by have := pl.out i; omega

end Blocks

theorem scale_apply (x : RVec ℝ q) (c : ℝ) (i : Fin q) : scale x c i = c * x i := by
  unfold scale
  split_ifs with h
  · rw [← h, one_mul]
  · rfl

/-! ## Restoration Hessian -/

theorem symEntry_append (a b : List (Ent ℝ)) (i j : ℕ) :
    symEntry (a ++ b) i j = symEntry a i j + symEntry b i j := by simp [symEntry]

theorem symEntry_cons (e : Ent ℝ) (es : List (Ent ℝ)) (i j : ℕ) :
    symEntry (e :: es) i j = ((if e.r = i ∧ e.c = j then e.v else 0) +
      if e.r ≠ e.c ∧ e.c = i ∧ e.r = j then e.v else 0) + symEntry es i j := by
  simp [symEntry]

theorem symEntry_nil (i j : ℕ) : symEntry ([] : List (Ent ℝ)) i j = 0 := rfl

/-- The entries one row contributes. -/
def hessRow (H : List (Ent ℝ)) (dg : ℕ → ℝ) (i : ℕ) : List (Ent ℝ) :=
  match rowSlice H i with
  | [] => [⟨i, i, dg i⟩]
  | e :: es =>
    if e.r = e.c then ⟨i, i, dg i + e.v⟩ :: es.map fun e => ⟨i, e.c, e.v⟩
    else ⟨i, i, dg i⟩ :: (e :: es).map fun e => ⟨i, e.c, e.v⟩

theorem hessRows_eq (p : ℕ) (H : List (Ent ℝ)) (dg : ℕ → ℝ) :
    hessRows p H dg = (List.range p).flatMap (hessRow H dg) := rfl

theorem sym_flatMap (l : List ℕ) (f : ℕ → List (Ent ℝ)) (i j : ℕ) :
    symEntry (l.flatMap f) i j = (l.map fun r => symEntry (f r) i j).sum := by
  induction l with
  | nil => rfl
  | cons a l ih => rw [List.flatMap_cons, symEntry_append, ih]; simp

theorem map_row_id (es : List (Ent ℝ)) (i : ℕ) (h : ∀ e ∈ es, e.r = i) :
    (es.map fun e => (⟨i, e.c, e.v⟩ : Ent ℝ)) = es := by
  induction es with
  | nil => rfl
  | cons e es ih =>
    rw [List.map_cons, ih fun e he => h e (List.mem_cons_of_mem _ he), ← h e (by simp)]

theorem symEntry_hessRow (H : List (Ent ℝ)) (hs : RowSorted H) (dg : ℕ → ℝ) (r i j : ℕ) :
    symEntry (hessRow H dg r) i j =
      symEntry (rowSlice H r) i j + if r = i ∧ r = j then dg r else 0 := by
  have hr : ∀ e ∈ rowSlice H r, e.r = r := by
    intro e he
    rw [rowSlice_eq H hs] at he
    simpa using (List.mem_filter.1 he).2
  unfold hessRow
  cases hsl : rowSlice H r with
  | nil => simp [symEntry_cons, symEntry_nil]
  | cons e es =>
    rw [hsl] at hr
    have he := hr e (by simp)
    have hes : ∀ e ∈ es, e.r = r := fun e h => hr e (List.mem_cons_of_mem _ h)
    simp only
    split_ifs with h1 h2 h2
    · rw [symEntry_cons, map_row_id es r hes, symEntry_cons]
      obtain ⟨rfl, rfl⟩ := h2
      simp only [← h1, he]; simp; ring
    · rw [symEntry_cons, map_row_id es r hes, symEntry_cons]
      simp only [← h1, he]; simp [h2]
    · rw [symEntry_cons, map_row_id _ r hr]
      obtain ⟨rfl, rfl⟩ := h2
      simp; ring
    · rw [symEntry_cons, map_row_id _ r hr]
      simp [h2]

theorem symEntry_filter_sum (H : List (Ent ℝ)) (p : ℕ) (hr : ∀ e ∈ H, e.r < p) (i j : ℕ) :
    ((List.range p).map fun r => symEntry (H.filter fun e => decide (e.r = r)) i j).sum
      = symEntry H i j := by
  induction H with
  | nil => simp [symEntry_nil]
  | cons e H ih =>
    have ih' := ih fun e he => hr e (List.mem_cons_of_mem _ he)
    have step : ∀ r, symEntry ((e :: H).filter fun e => decide (e.r = r)) i j =
        (if r = e.r then symEntry [e] i j else 0) +
          symEntry (H.filter fun e => decide (e.r = r)) i j := by
      intro r
      by_cases h : e.r = r
      · subst h
        simp [List.filter_cons, symEntry_cons, symEntry_nil]
      · simp [List.filter_cons, h, Ne.symm h]
    have he := hr e (by simp)
    rw [List.map_congr_left (fun r _ => step r), List.sum_map_add, ih', symEntry_cons]
    congr 1
    rw [← List.sum_toFinset _ List.nodup_range]
    simp [he, symEntry_cons, symEntry_nil]

theorem symEntry_hessRows (p : ℕ) (H : List (Ent ℝ)) (hs : RowSorted H) (hr : ∀ e ∈ H, e.r < p)
    (dg : ℕ → ℝ) (i j : ℕ) :
    symEntry (hessRows p H dg) i j = symEntry H i j + if i = j ∧ i < p then dg i else 0 := by
  rw [hessRows_eq, sym_flatMap, List.map_congr_left fun r _ => symEntry_hessRow H hs dg r i j,
    List.sum_map_add]
  congr 1
  · rw [List.map_congr_left fun r _ => by rw [rowSlice_eq H hs]]
    exact symEntry_filter_sum H p hr i j
  · rw [← List.sum_toFinset _ List.nodup_range]
    by_cases hi : i < p
    · rw [Finset.sum_eq_single i]
      · by_cases h : i = j <;> simp [h, hi]
        rw [h] at hi
        intro h'; omega
      · intro r _ hr
        rw [if_neg (by tauto)]
      · intro h
        exact absurd (by simpa using hi) h
    · rw [if_neg (by tauto)]
      apply Finset.sum_eq_zero
      intro r hr
      have : r < p := by simpa using hr
      rw [if_neg (by omega)]

theorem length_flatMap_filter (H : List (Ent ℝ)) (p : ℕ) (hr : ∀ e ∈ H, e.r < p)
    (q : Ent ℝ → Bool) :
    ((List.range p).map fun r => ((H.filter fun e => decide (e.r = r)).filter q).length).sum
      = (H.filter q).length := by
  induction H with
  | nil => simp
  | cons e H ih =>
    have ih' := ih fun e he => hr e (List.mem_cons_of_mem _ he)
    have step : ∀ r, (((e :: H).filter fun e => decide (e.r = r)).filter q).length =
        (if r = e.r then (if q e then 1 else 0) else 0) +
          ((H.filter fun e => decide (e.r = r)).filter q).length := by
      intro r
      by_cases h : e.r = r
      · subst h
        by_cases hq : q e = true <;> simp [List.filter_cons, hq]; omega
      · simp [List.filter_cons, h, Ne.symm h]
    have he := hr e (by simp)
    rw [List.map_congr_left (fun r _ => step r), List.sum_map_add, ih',
      ← List.sum_toFinset _ List.nodup_range]
    by_cases hq : q e = true <;> simp [List.filter_cons, hq, he]; omega

theorem length_hessRow (H : List (Ent ℝ)) (hs : Sorted H) (hu : ∀ e ∈ H, e.r ≤ e.c) (dg : ℕ → ℝ)
    (r : ℕ) :
    (hessRow H dg r).length = 1 + ((rowSlice H r).filter fun e => decide (e.r ≠ e.c)).length := by
  have hrs : RowSorted H := hs.imp fun h => by omega
  have hsl' := rowSlice_eq H hrs r
  have hr : ∀ e ∈ rowSlice H r, e.r = r ∧ e.r ≤ e.c := by
    intro e he
    rw [hsl'] at he
    obtain ⟨h1, h2⟩ := List.mem_filter.1 he
    exact ⟨by simpa using h2, hu e h1⟩
  have hp : Sorted (rowSlice H r) := by rw [hsl']; exact hs.filter _
  unfold hessRow
  cases hsl : rowSlice H r with
  | nil => simp
  | cons e es =>
    rw [hsl] at hr hp
    have he := hr e (by simp)
    have hall : ∀ a ∈ es, decide (a.r ≠ a.c) = true := by
      intro a ha
      have h1 := hr a (List.mem_cons_of_mem _ ha)
      have h2 := List.rel_of_pairwise_cons hp ha
      simp only [decide_eq_true_eq]; omega
    have hf : es.filter (fun e => decide (e.r ≠ e.c)) = es := List.filter_eq_self.2 hall
    simp only
    split_ifs with h1
    · rw [List.filter_cons_of_neg (by simpa using h1), hf]; simp; omega
    · rw [List.filter_cons_of_pos (by simpa using h1), hf]; simp; omega

theorem length_hessRows (p : ℕ) (H : List (Ent ℝ)) (hs : Sorted H) (hu : ∀ e ∈ H, e.r ≤ e.c)
    (hr : ∀ e ∈ H, e.r < p) (dg : ℕ → ℝ) :
    (hessRows p H dg).length = p + numOffDiag H := by
  have hrs : RowSorted H := hs.imp fun h => by omega
  rw [hessRows_eq, List.length_flatMap, C27_numOffDiag,
    List.map_congr_left fun r _ => length_hessRow H hs hu dg r, List.sum_map_add,
    ← length_flatMap_filter H p hr]
  congr 1
  · simp
  · congr 1
    apply List.map_congr_left
    intro r _
    rw [rowSlice_eq H hrs]

end Hiop.Fr
