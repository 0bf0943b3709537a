import Verif.Kkt.Model
import Verif.Iterate.Props

/-!
# Component formulas for the search-direction model
-/

set_option linter.unusedSectionVars false

namespace Hiop.Kkt

open Hiop.Vec Hiop.Iterate

variable {K : Type*} [Field K] [LinearOrder K] [IsStrictOrderedRing K] {n mc m p q : ℕ}

theorem one_ne_neg_one : (1:K) ≠ -1 := by
  have : (-1:K) < 1 := by linarith [zero_lt_one (α := K)]
  exact this.ne'

theorem neg_one_ne_one : (-1:K) ≠ 1 := one_ne_neg_one.symm

theorem axzpy_one (y x z : RVec K p) (i : Fin p) : axzpy y 1 x z i = y i + x i * z i := by
  simp [axzpy]

theorem axzpy_neg_one (y x z : RVec K p) (i : Fin p) : axzpy y (-1) x z i = y i - x i * z i := by
  simp [axzpy, neg_one_ne_one]

theorem axdzpySel_one (y x z w : RVec K p) (i : Fin p) :
    axdzpySel y 1 x z w i = y i + if w i = 1 then x i / z i else 0 := by
  simp only [axdzpySel, if_true]; split <;> simp

theorem axdzpySel_neg_one (y x z w : RVec K p) (i : Fin p) :
    axdzpySel y (-1) x z w i = y i - if w i = 1 then x i / z i else 0 := by
  simp only [axdzpySel, if_neg neg_one_ne_one, if_true]; split <;> simp

theorem timesVec_apply (A : Matrix (Fin p) (Fin q) K) (be : K) (y : RVec K p) (al : K)
    (x : RVec K q) (i : Fin p) : timesVec A be y al x i = be * y i + al * ∑ j, A i j * x j := by
  simp [timesVec, Matrix.mulVec, dotProduct]

theorem transTimesVec_apply (A : Matrix (Fin p) (Fin q) K) (be : K) (y : RVec K q) (al : K)
    (x : RVec K p) (j : Fin q) :
    transTimesVec A be y al x j = be * y j + al * ∑ i, A i j * x i := by
  simp [transTimesVec, Matrix.mulVec, dotProduct, Matrix.transpose]

theorem barrierDx_apply (b : Bounds K n m) (it : It K n mc m) (i : Fin n) :
    barrierDx b it i = (if b.ixl i = 1 then it.zl i / it.sxl i else 0)
      + (if b.ixu i = 1 then it.zu i / it.sxu i else 0) := by
  simp [barrierDx, axdzpySel_one, zeroVec]

theorem barrierDd_apply (b : Bounds K n m) (it : It K n mc m) (i : Fin m) :
    barrierDd b it i = (if b.idl i = 1 then it.vl i / it.sdl i else 0)
      + (if b.idu i = 1 then it.vu i / it.sdu i else 0) := by
  simp [barrierDd, axdzpySel_one, zeroVec]

/-- The counter of a bound family is zero only if the family is empty. -/
def CountOk (c : ℤ) (w : RVec K p) : Prop := c = (Finset.univ.filter fun i => w i = 1).card

theorem CountOk.none {c : ℤ} {w : RVec K p} (h : CountOk c w) (hc : ¬ c > 0) (i : Fin p) :
    w i ≠ 1 := by
  intro hi
  have : 0 < (Finset.univ.filter fun i => w i = 1).card :=
    Finset.card_pos.2 ⟨i, by simp [hi]⟩
  unfold CountOk at h
  omega

/-- The bound counters are the numbers of ones in the patterns. -/
structure CountsOk (c : Counts) (b : Bounds K n m) : Prop where
  nLow : CountOk c.nLow b.ixl
  nUpp : CountOk c.nUpp b.ixu
  mLow : CountOk c.mLow b.idl
  mUpp : CountOk c.mUpp b.idu

theorem rxTilde_apply (b : Bounds K n m) (c : Counts) (hc : CountsOk c b) (it : It K n mc m)
    (r : Resid K n mc m) (i : Fin n) :
    rxTilde b c it r i = r.rx i
      + (if b.ixl i = 1 then (r.rszl i - it.zl i * r.rxl i) / it.sxl i else 0)
      - (if b.ixu i = 1 then (r.rszu i - it.zu i * r.rxu i) / it.sxu i else 0) := by
  unfold rxTilde
  by_cases h1 : c.nLow > 0 <;> by_cases h2 : c.nUpp > 0
  · simp [h1, h2, axdzpySel_one, axdzpySel_neg_one, axzpy_neg_one]
  · simp [h1, h2, axdzpySel_one, axzpy_neg_one, hc.nUpp.none h2 i]
  · simp [h1, h2, axdzpySel_neg_one, axzpy_neg_one, hc.nLow.none h1 i]
  · simp [h1, h2, hc.nLow.none h1 i, hc.nUpp.none h2 i]

theorem rdTilde_apply (b : Bounds K n m) (c : Counts) (hc : CountsOk c b) (it : It K n mc m)
    (r : Resid K n mc m) (i : Fin m) :
    rdTilde b c it r i = r.rd i
      + (if b.idl i = 1 then (r.rsvl i - it.vl i * r.rdl i) / it.sdl i else 0)
      - (if b.idu i = 1 then (r.rsvu i - it.vu i * r.rdu i) / it.sdu i else 0) := by
  unfold rdTilde
  by_cases h1 : c.mLow > 0 <;> by_cases h2 : c.mUpp > 0
  · simp [h1, h2, axdzpySel_one, axdzpySel_neg_one, axzpy_neg_one]
  · simp [h1, h2, axdzpySel_one, axzpy_neg_one, hc.mUpp.none h2 i]
  · simp [h1, h2, axdzpySel_neg_one, axzpy_neg_one, hc.mLow.none h1 i]
  · simp [h1, h2, hc.mLow.none h1 i, hc.mUpp.none h2 i]

section full
variable (b : Bounds K n m) (c : Counts) (hc : CountsOk c b) (hp : Patterns b)
  (it : It K n mc m) (r : Resid K n mc m) (dir : It K n mc m)
include hc hp
set_option linter.unusedSimpArgs false

theorem fullSpace_x : (fullSpace b c it r dir).x = dir.x := by
  unfold fullSpace; split_ifs <;> rfl
theorem fullSpace_d : (fullSpace b c it r dir).d = dir.d := by
  unfold fullSpace; split_ifs <;> rfl
theorem fullSpace_yc : (fullSpace b c it r dir).yc = dir.yc := by
  unfold fullSpace; split_ifs <;> rfl
theorem fullSpace_yd : (fullSpace b c it r dir).yd = dir.yd := by
  unfold fullSpace; split_ifs <;> rfl

theorem fullSpace_sxl (i : Fin n) :
    (fullSpace b c it r dir).sxl i = if b.ixl i = 1 then r.rxl i + dir.x i else 0 := by
  have e : (fullSpace b c it r dir).sxl =
      if c.nLow > 0 then Vec.selectPattern (axpy r.rxl 1 dir.x) b.ixl else zeroVec n := by
    unfold fullSpace; split_ifs <;> rfl
  rw [e]
  by_cases h : c.nLow > 0
  · rw [if_pos h]
    rcases hp.ixl i with h0 | h0 <;> simp [Vec.selectPattern, axpy, h0]
  · rw [if_neg h, if_neg (hc.nLow.none h i)]; rfl

theorem fullSpace_zl (i : Fin n) :
    (fullSpace b c it r dir).zl i =
      if b.ixl i = 1 then (r.rszl i - it.zl i * (r.rxl i + dir.x i)) / it.sxl i else 0 := by
  have e : (fullSpace b c it r dir).zl =
      if c.nLow > 0 then componentDivSel (axzpy r.rszl (-1) it.zl
        (Vec.selectPattern (axpy r.rxl 1 dir.x) b.ixl)) it.sxl b.ixl else zeroVec n := by
    unfold fullSpace; split_ifs <;> rfl
  rw [e]
  by_cases h : c.nLow > 0
  · rw [if_pos h]
    rcases hp.ixl i with h0 | h0 <;>
      simp [componentDivSel, axzpy_neg_one, Vec.selectPattern, axpy, h0]
  · rw [if_neg h, if_neg (hc.nLow.none h i)]; rfl

theorem fullSpace_sxu (i : Fin n) :
    (fullSpace b c it r dir).sxu i = if b.ixu i = 1 then r.rxu i - dir.x i else 0 := by
  have e : (fullSpace b c it r dir).sxu =
      if c.nUpp > 0 then Vec.selectPattern (axpy r.rxu (-1) dir.x) b.ixu else zeroVec n := by
    unfold fullSpace; split_ifs <;> rfl
  rw [e]
  by_cases h : c.nUpp > 0
  · rw [if_pos h]
    rcases hp.ixu i with h0 | h0 <;> simp [Vec.selectPattern, axpy, h0, sub_eq_add_neg]
  · rw [if_neg h, if_neg (hc.nUpp.none h i)]; rfl

theorem fullSpace_zu (i : Fin n) :
    (fullSpace b c it r dir).zu i =
      if b.ixu i = 1 then (r.rszu i - it.zu i * (r.rxu i - dir.x i)) / it.sxu i else 0 := by
  have e : (fullSpace b c it r dir).zu =
      if c.nUpp > 0 then componentDivSel (Vec.selectPattern (axzpy r.rszu (-1) it.zu
        (Vec.selectPattern (axpy r.rxu (-1) dir.x) b.ixu)) b.ixu) it.sxu b.ixu else zeroVec n := by
    unfold fullSpace; split_ifs <;> rfl
  rw [e]
  by_cases h : c.nUpp > 0
  · rw [if_pos h]
    rcases hp.ixu i with h0 | h0 <;>
      simp [componentDivSel, axzpy_neg_one, Vec.selectPattern, axpy, h0, sub_eq_add_neg]
  · rw [if_neg h, if_neg (hc.nUpp.none h i)]; rfl

theorem fullSpace_sdl (i : Fin m) :
    (fullSpace b c it r dir).sdl i = if b.idl i = 1 then r.rdl i + dir.d i else 0 := by
  have e : (fullSpace b c it r dir).sdl =
      if c.mLow > 0 then Vec.selectPattern (axpy r.rdl 1 dir.d) b.idl else zeroVec m := by
    unfold fullSpace; split_ifs <;> rfl
  rw [e]
  by_cases h : c.mLow > 0
  · rw [if_pos h]
    rcases hp.idl i with h0 | h0 <;> simp [Vec.selectPattern, axpy, h0]
  · rw [if_neg h, if_neg (hc.mLow.none h i)]; rfl

theorem fullSpace_vl (i : Fin m) :
    (fullSpace b c it r dir).vl i =
      if b.idl i = 1 then (r.rsvl i - it.vl i * (r.rdl i + dir.d i)) / it.sdl i else 0 := by
  have e : (fullSpace b c it r dir).vl =
      if c.mLow > 0 then componentDivSel (Vec.selectPattern (axzpy r.rsvl (-1) it.vl
        (Vec.selectPattern (axpy r.rdl 1 dir.d) b.idl)) b.idl) it.sdl b.idl else zeroVec m := by
    unfold fullSpace; split_ifs <;> rfl
  rw [e]
  by_cases h : c.mLow > 0
  · rw [if_pos h]
    rcases hp.idl i with h0 | h0 <;>
      simp [componentDivSel, axzpy_neg_one, Vec.selectPattern, axpy, h0]
  · rw [if_neg h, if_neg (hc.mLow.none h i)]; rfl

theorem fullSpace_sdu (i : Fin m) :
    (fullSpace b c it r dir).sdu i = if b.idu i = 1 then r.rdu i - dir.d i else 0 := by
  have e : (fullSpace b c it r dir).sdu =
      if c.mUpp > 0 then Vec.selectPattern (axpy r.rdu (-1) dir.d) b.idu else zeroVec m := by
    unfold fullSpace; split_ifs <;> rfl
  rw [e]
  by_cases h : c.mUpp > 0
  · rw [if_pos h]
    rcases hp.idu i with h0 | h0 <;> simp [Vec.selectPattern, axpy, h0, sub_eq_add_neg]
  · rw [if_neg h, if_neg (hc.mUpp.none h i)]; rfl

theorem fullSpace_vu (i : Fin m) :
    (fullSpace b c it r dir).vu i =
      if b.idu i = 1 then (r.rsvu i - it.vu i * (r.rdu i - dir.d i)) / it.sdu i else 0 := by
  have e : (fullSpace b c it r dir).vu =
      if c.mUpp > 0 then componentDivSel (Vec.selectPattern (axzpy r.rsvu (-1) it.vu
        (Vec.selectPattern (axpy r.rdu (-1) dir.d) b.idu)) b.idu) it.sdu b.idu else zeroVec m := by
    unfold fullSpace; split_ifs <;> rfl
  rw [e]
  by_cases h : c.mUpp > 0
  · rw [if_pos h]
    rcases hp.idu i with h0 | h0 <;>
      simp [componentDivSel, axzpy_neg_one, Vec.selectPattern, axpy, h0, sub_eq_add_neg]
  · rw [if_neg h, if_neg (hc.mUpp.none h i)]; rfl

end full

end Hiop.Kkt
