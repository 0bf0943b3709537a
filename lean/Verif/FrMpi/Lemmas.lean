import Verif.FrMpi.Model
import Verif.Mpi.Lemmas

/-!
# Lemmas on the copies of the distributed restoration problem
-/

namespace Hiop.FrMpi

open Hiop.Vec Hiop.Kkt Hiop.QN Hiop.Mpi Hiop.Fr Hiop.Iterate

variable {n mc m P : ℕ}

/-- The partition of the variables of the restoration problem: that of the base problem, all the new variables on
the last rank. Specification. -/
def frPart (p : Part n P) (hP : 0 < P) (mc m : ℕ) : Part (nTot n mc m) P where
  off i := if i < P then p.off i else nTot n mc m
  zero := by simp [hP, p.zero]
  last := by simp
  mono := by
    intro i j h
    have h1 := p.mono h
    have h2 : i < P → p.off i ≤ n := fun hi => (p.mono hi.le).trans p.last.le
    unfold nTot
    simp only
    split_ifs with hi hj
    · exact h1
    · have := h2 hi; omega
    · omega
    · exact le_rfl

theorem off_le (p : Part n P) {i : ℕ} (h : i ≤ P) : p.off i ≤ n :=
  (p.mono h).trans p.last.le

theorem off_lt (p : Part n P) (hP : 0 < P) (mc m : ℕ) (r : Fin P) : (frPart p hP mc m).off r = p.off r :=
  if_pos r.isLt

theorem off_succ (p : Part n P) (hP : 0 < P) (mc m : ℕ) (r : Fin P) :
    ((r : ℕ) + 1 < P ∧ (frPart p hP mc m).off (r + 1) = p.off (r + 1)) ∨
      ((r : ℕ) + 1 = P ∧ (frPart p hP mc m).off (r + 1) = nTot n mc m ∧ p.off (r + 1) = n) := by
  have hr := r.isLt
  by_cases h : (r : ℕ) + 1 < P
  · exact Or.inl ⟨h, if_pos h⟩
  · refine Or.inr ⟨by omega, if_neg h, ?_⟩
    have : (r : ℕ) + 1 = P := by omega
    rw [this, p.last]

/-- Same size and place. -/
structure SameFrame (v w : PVec) : Prop where
  n : w.n = v.n
  il : w.il = v.il
  iu : w.iu = v.iu

theorem SameFrame.len {v w : PVec} (h : SameFrame v w) : w.len = v.len := by
  simp [PVec.len, h.il, h.iu]

theorem SameFrame.refl (v : PVec) : SameFrame v v := ⟨rfl, rfl, rfl⟩

theorem SameFrame.trans {u v w : PVec} (h : SameFrame u v) (k : SameFrame v w) : SameFrame u w :=
  ⟨k.n.trans h.n, k.il.trans h.il, k.iu.trans h.iu⟩

variable (p : Part n P) (hP : 0 < P)

theorem cts_x (r : Fin P) (x : ℕ → ℝ) (buf : ℕ → ℝ) :
    ∃ w, copyToStarting (xVec p r x) (primal n mc m (frPart p hP mc m).off r buf) 0 = some w ∧
      SameFrame (primal n mc m (frPart p hP mc m).off r buf) w ∧
      ∀ k < (frPart p hP mc m).len r,
        w.data k = if (frPart p hP mc m).off r + k < n then x k else buf k := by
  have h0 := off_lt p hP mc m r
  have h1 := off_succ p hP mc m r
  have h2 : p.off r ≤ p.off (r + 1) := p.mono (by omega)
  have h3 : p.off (r + 1) ≤ n := off_le p r.isLt
  have hn : n ≤ nTot n mc m := by unfold nTot; omega
  unfold copyToStarting
  have e1 : (xVec p r x).len = p.off (r + 1) - p.off r := rfl
  have e2 : (primal n mc m (frPart p hP mc m).off r buf).len
      = (frPart p hP mc m).off (r + 1) - (frPart p hP mc m).off r := rfl
  have e3 : (frPart p hP mc m).len r = (frPart p hP mc m).off (r + 1) - (frPart p hP mc m).off r := rfl
  generalize (frPart p hP mc m).off r = a at *
  generalize (frPart p hP mc m).off (r + 1) = b at *
  have c0 : 0 + (xVec p r x).n ≤ (primal n mc m (frPart p hP mc m).off r buf).n := by
    simp only [xVec, primal]; omega
  rw [if_pos c0]
  by_cases hl : 0 < (xVec p r x).len
  · rw [if_pos hl]
    have est : (if (primal n mc m (frPart p hP mc m).off r buf).il ≤ 0 ∧
        0 < (primal n mc m (frPart p hP mc m).off r buf).iu then
          ((0 : ℕ) : ℤ) - (primal n mc m (frPart p hP mc m).off r buf).il
        else if (primal n mc m (frPart p hP mc m).off r buf).iu ≤ 0 then -1 else 0) = (0 : ℤ) := by
      have ea : (primal n mc m (frPart p hP mc m).off r buf).iu = (frPart p hP mc m).off (r + 1) := rfl
      have hb : 0 < (frPart p hP mc m).off (r + 1) := by
        rcases off_succ p hP mc m r with ⟨_, h⟩ | ⟨_, h, h'⟩ <;> omega
      split_ifs with ha hb'
      · have := ha.1; omega
      · omega
      · rfl
    simp only [est]
    rw [if_pos le_rfl, if_pos (by rw [e1, e2]; omega)]
    refine ⟨_, rfl, ⟨rfl, rfl, rfl⟩, fun k hk => ?_⟩
    simp only [Int.toNat_zero, copyN, zero_add, Nat.zero_le, true_and, Nat.sub_zero]
    by_cases hc : k < (xVec p r x).len
    · rw [if_pos hc, if_pos (by omega)]; rfl
    · rw [if_neg hc, if_neg (by omega)]; rfl
  · rw [if_neg hl]
    refine ⟨_, rfl, SameFrame.refl _, fun k hk => ?_⟩
    rw [if_neg (by omega)]; rfl

theorem cts_rep (r : Fin P) (b start : ℕ) (data : ℕ → ℝ) (buf : ℕ → ℝ) (v : PVec)
    (hv : SameFrame (primal n mc m (frPart p hP mc m).off r buf) v) (hs : n ≤ start)
    (hb : start + b ≤ nTot n mc m) :
    ∃ w, copyToStarting (whole b data) v start = some w ∧ SameFrame v w ∧
      ∀ k < (frPart p hP mc m).len r,
        w.data k = if start ≤ (frPart p hP mc m).off r + k ∧ (frPart p hP mc m).off r + k < start + b
          then data ((frPart p hP mc m).off r + k - start) else v.data k := by
  have h0 := off_lt p hP mc m r
  have h1 := off_succ p hP mc m r
  have h3 : p.off (r + 1) ≤ n := off_le p r.isLt
  have h4 : p.off r ≤ n := off_le p r.isLt.le
  have hil : v.il = (frPart p hP mc m).off r := hv.il
  have hiu : v.iu = (frPart p hP mc m).off (r + 1) := hv.iu
  have hnn : v.n = nTot n mc m := hv.n
  have hlen : v.len = (frPart p hP mc m).off (r + 1) - (frPart p hP mc m).off r := by
    rw [PVec.len, hil, hiu]
  have e1 : (whole b data).len = b := rfl
  have e3 : (frPart p hP mc m).len r = (frPart p hP mc m).off (r + 1) - (frPart p hP mc m).off r := rfl
  have e4 : (whole b data).n = b := rfl
  unfold copyToStarting
  generalize (frPart p hP mc m).off r = a at *
  generalize (frPart p hP mc m).off (r + 1) = c at *
  rw [if_pos (by rw [e4, hnn]; exact hb)]
  by_cases hl : 0 < b
  · rw [if_pos (by rw [e1]; exact hl)]
    rcases h1 with ⟨_, h⟩ | ⟨_, h, h'⟩
    · have est : (if v.il ≤ start ∧ start < v.iu then (start : ℤ) - v.il
          else if v.iu ≤ start then -1 else 0) = -1 := by
        rw [if_neg (by omega), if_pos (by omega)]
      simp only [est]
      rw [if_neg (by omega)]
      refine ⟨_, rfl, SameFrame.refl _, fun k hk => ?_⟩
      rw [if_neg (by omega)]
    · have est : (if v.il ≤ start ∧ start < v.iu then (start : ℤ) - v.il
          else if v.iu ≤ start then -1 else 0) = ((start - a : ℕ) : ℤ) := by
        rw [if_pos (by omega)]; omega
      simp only [est]
      rw [if_pos (by omega), if_pos (by rw [e1, hlen]; omega)]
      refine ⟨_, rfl, ⟨rfl, rfl, rfl⟩, fun k hk => ?_⟩
      simp only [Int.toNat_natCast, copyN, e1]
      by_cases hc : start ≤ a + k ∧ a + k < start + b
      · rw [if_pos (by omega), if_pos hc]
        simp only [whole]
        congr 1
        omega
      · rw [if_neg (by omega), if_neg hc]
  · rw [if_neg (by rw [e1]; exact hl)]
    refine ⟨_, rfl, SameFrame.refl _, fun k hk => ?_⟩
    rw [if_neg (by omega)]

/-- Between two replicated vectors. -/
theorem cts_whole (b start N : ℕ) (data : ℕ → ℝ) (v : PVec) (hv : v.n = N ∧ v.il = 0 ∧ v.iu = N)
    (hb : start + b ≤ N) :
    ∃ w, copyToStarting (whole b data) v start = some w ∧ (w.n = N ∧ w.il = 0 ∧ w.iu = N) ∧
      ∀ k, w.data k = if start ≤ k ∧ k < start + b then data (k - start) else v.data k := by
  obtain ⟨hn, hil, hiu⟩ := hv
  have e1 : (whole b data).len = b := rfl
  have e4 : (whole b data).n = b := rfl
  unfold copyToStarting
  rw [if_pos (by rw [e4, hn]; exact hb)]
  by_cases hl : 0 < b
  · rw [if_pos (by rw [e1]; exact hl)]
    have est : (if v.il ≤ start ∧ start < v.iu then (start : ℤ) - v.il
        else if v.iu ≤ start then -1 else 0) = (start : ℤ) := by
      rw [if_pos (by omega), hil]; simp
    simp only [est]
    rw [if_pos (by omega), if_pos (by rw [e1, PVec.len, hil, hiu]; omega)]
    refine ⟨_, rfl, ⟨hn, hil, hiu⟩, fun k => ?_⟩
    simp only [copyN, e1, Int.toNat_natCast, zero_add]
    rfl
  · rw [if_neg (by rw [e1]; exact hl)]
    refine ⟨_, rfl, ⟨hn, hil, hiu⟩, fun k => ?_⟩
    rw [if_neg (by omega)]

/-- A vector distributed by a partition reads its own part. -/
theorem cfs_own (N il iu : ℕ) (junk x : ℕ → ℝ) (h1 : iu ≤ N) :
    ∃ w, copyFromStartingAt ⟨N, il, iu, junk⟩ x 0 N = some w ∧ w.n = N ∧ w.il = il ∧ w.iu = iu ∧
      ∀ k < iu - il, w.data k = x k := by
  by_cases hl : 0 < iu - il
  · by_cases hc : N = iu - il ∧ iu - il = N
    · refine ⟨⟨N, il, iu, copyN junk 0 x 0 N⟩, ?_, rfl, rfl, rfl, fun k hk => ?_⟩
      · simp only [copyFromStartingAt, PVec.len]
        rw [if_pos hl, if_pos hc]
      · simp only [copyN, zero_add, Nat.zero_le, true_and, Nat.sub_zero]
        rw [if_pos (by omega)]
    · refine ⟨⟨N, il, iu, copyN junk 0 x 0 (iu - il)⟩, ?_, rfl, rfl, rfl, fun k hk => ?_⟩
      · simp only [copyFromStartingAt, PVec.len, zero_add, Nat.zero_le, if_true]
        rw [if_pos hl, if_neg hc, if_pos ⟨by omega, trivial⟩, if_pos h1, if_pos (by omega)]
        have : ((iu : ℤ) - il - 0).toNat = iu - il := by omega
        rw [this]
        rfl
      · simp only [copyN, zero_add, Nat.zero_le, true_and, Nat.sub_zero]
        rw [if_pos hk]
  · refine ⟨⟨N, il, iu, junk⟩, ?_, rfl, rfl, rfl, fun k hk => absurd hk (by omega)⟩
    simp only [copyFromStartingAt, PVec.len]
    rw [if_neg hl]

theorem cfs_x (r : Fin P) (junk x : ℕ → ℝ) :
    ∃ w, copyFromStartingAt (xVec p r junk) x 0 n = some w ∧ w.len = p.len r ∧ ∀ k < p.len r, w.data k = x k := by
  obtain ⟨w, h, _, h2, h3, h4⟩ := cfs_own n (p.off r) (p.off (r + 1)) junk x (off_le p r.isLt)
  exact ⟨w, h, by rw [PVec.len, h2, h3]; rfl, h4⟩

theorem cfs_primal (r : Fin P) (junk x : ℕ → ℝ) :
    ∃ w, copyFromStartingAt (primal n mc m (frPart p hP mc m).off r junk) x 0 (nTot n mc m) = some w ∧
      w.len = (frPart p hP mc m).len r ∧ ∀ k < (frPart p hP mc m).len r, w.data k = x k := by
  obtain ⟨w, h, _, h2, h3, h4⟩ := cfs_own (nTot n mc m) ((frPart p hP mc m).off r)
    ((frPart p hP mc m).off (r + 1)) junk x (off_le _ r.isLt)
  exact ⟨w, h, by rw [PVec.len, h2, h3]; rfl, h4⟩

theorem cfs_whole (q : ℕ) (w0 : PVec) (hw : w0.n = q ∧ w0.il = 0 ∧ w0.iu = q) (x : ℕ → ℝ) :
    ∃ w, copyFromStartingAt w0 x 0 q = some w ∧ (w.n = q ∧ w.il = 0 ∧ w.iu = q) ∧ copyOut w.data 0 q = copyOut x 0 q := by
  obtain ⟨N, il, iu, d⟩ := w0
  simp only at hw
  obtain ⟨rfl, rfl, rfl⟩ := hw
  obtain ⟨w, h, h1, h2, h3, h4⟩ := cfs_own _ 0 _ d x le_rfl
  refine ⟨w, h, ⟨h1, h2, h3⟩, ?_⟩
  funext k
  simp only [copyOut, zero_add]
  exact h4 k (by have := k.isLt; omega)

theorem sum_eq (v : PVec) : v.sum = ∑ i : Fin v.len, v.data i := by
  unfold PVec.sum
  have h : ∀ N (a : ℝ), (List.range N).foldl (fun a i => a + v.data i) a
      = a + ∑ i ∈ Finset.range N, v.data i := by
    intro N
    induction N with
    | zero => intro a; simp
    | succ N ih => intro a; rw [List.range_succ, List.foldl_append, ih, Finset.sum_range_succ]; simp [add_assoc]
  rw [h, zero_add, Finset.sum_range]

end Hiop.FrMpi
