import Verif.Perturb.Model
import Mathlib.Tactic.Linarith
import Mathlib.Tactic.Positivity
import Mathlib.Tactic.FieldSimp

/-!
# Lemmas about the perturbation calculators
-/

set_option linter.unusedSimpArgs false

namespace Hiop.Perturb

/-- Invariant of the scalars. -/
structure Good (p : Params) (s : PState) : Prop where
  wEq : s.cur.wx = s.cur.wd
  cEq : s.cur.cc = s.cur.cd
  lwEq : s.last.wx = s.last.wd
  lcEq : s.last.cc = s.last.cd
  w0 : 0 ≤ s.cur.wx
  c0 : 0 ≤ s.cur.cc
  lw0 : 0 ≤ s.last.wx
  lc0 : 0 ≤ s.last.cc
  low : s.cur.wx = 0 ∨ min p.w0 p.wMin ≤ s.cur.wx
  mu0 : 0 < s.mu

theorem deltaC_pos (p : Params) (h : p.Ok) (mu : ℝ) (hmu : 0 < mu) : 0 < deltaC p mu :=
  mul_pos h.cb (Real.rpow_pos_of_pos hmu _)

theorem updateDegen_cur (s : PState) : (updateDegen s).cur = s.cur := by
  unfold updateDegen; repeat' split
  all_goals (try simp only []) <;> (try split_ifs) <;> rfl

theorem updateDegen_last (s : PState) : (updateDegen s).last = s.last := by
  unfold updateDegen; repeat' split
  all_goals (try simp only []) <;> (try split_ifs) <;> rfl

theorem updateDegen_vec (s : PState) : (updateDegen s).vec = s.vec := by
  unfold updateDegen; repeat' split
  all_goals (try simp only []) <;> (try split_ifs) <;> rfl

theorem updateDegen_mu (s : PState) : (updateDegen s).mu = s.mu := by
  unfold updateDegen; repeat' split
  all_goals (try simp only []) <;> (try split_ifs) <;> rfl

theorem updateDegen_yes (s : PState) (h : s.hess = .yes ∧ s.jac = .yes) :
    (updateDegen s).hess = .yes ∧ (updateDegen s).jac = .yes := by
  unfold updateDegen; repeat' split
  all_goals simp_all

theorem good_updateDegen (p : Params) (s : PState) (h : Good p s) : Good p (updateDegen s) := by
  obtain ⟨h1, h2, h3, h4, h5, h6, h7, h8, h9, h10⟩ := h
  constructor <;> simp only [updateDegen_cur, updateDegen_last, updateDegen_mu] <;> assumption

theorem good_saveLast (p : Params) (s : PState) (h : Good p s) : Good p (saveLast s) := by
  obtain ⟨h1, h2, h3, h4, h5, h6, h7, h8, h9, h10⟩ := h
  constructor <;> simp only [saveLast] <;> try assumption
  · rw [← h1, ← h3]
  · rw [← h2, ← h4]
  · split_ifs <;> linarith
  · split_ifs <;> linarith

/-- Growth factor. -/
noncomputable def growth (p : Params) : ℝ := min p.kPlusBar p.kPlus

theorem growth_gt (p : Params) (h : p.Ok) : 1 < growth p := lt_min h.kpb h.kp

theorem nextW_pos (p : Params) (h : p.Ok) (cur last : ℝ) (hc : 0 ≤ cur) (hl : 0 ≤ last) :
    0 < nextW p cur last := by
  unfold nextW
  split_ifs with h1 h2 h3
  · exact h.w00
  · have : 0 < last := lt_of_le_of_ne hl (Ne.symm h2)
    exact lt_of_lt_of_le (mul_pos this h.km0) (le_max_right _ _)
  · have : 0 < cur := lt_of_le_of_ne hc (Ne.symm h1)
    have := h.kpb; positivity
  · have : 0 < cur := lt_of_le_of_ne hc (Ne.symm h1)
    have := h.kp; positivity

theorem nextW_grow (p : Params) (_h : p.Ok) (cur last : ℝ) (hc : 0 < cur) :
    growth p * cur ≤ nextW p cur last := by
  unfold nextW growth
  rw [if_neg hc.ne']
  split_ifs
  · exact mul_le_mul_of_nonneg_right (min_le_left _ _) hc.le
  · exact mul_le_mul_of_nonneg_right (min_le_right _ _) hc.le

theorem nextW_lt (p : Params) (h : p.Ok) (cur last : ℝ) (hc : 0 ≤ cur) (hl : 0 ≤ last) :
    cur < nextW p cur last := by
  rcases hc.lt_or_eq with h1 | h1
  · have := nextW_grow p h cur last h1
    have := growth_gt p h
    nlinarith
  · rw [← h1]; exact nextW_pos p h 0 last le_rfl hl

theorem nextW_low (p : Params) (h : p.Ok) (cur last : ℝ) (hc : 0 ≤ cur) (hl : 0 ≤ last)
    (hlow : cur = 0 ∨ min p.w0 p.wMin ≤ cur) : min p.w0 p.wMin ≤ nextW p cur last := by
  rcases hlow with h1 | h1
  · unfold nextW; rw [if_pos h1]
    split_ifs
    · exact min_le_left _ _
    · exact (min_le_right _ _).trans (le_max_left _ _)
  · exact h1.trans (nextW_lt p h cur last hc hl).le

/-- Everything about `guts` on consistent scalars. -/
theorem guts_spec (p : Params) (s : PState) (h1 : s.cur.wx = s.cur.wd)
    (h2 : s.last.wx = s.last.wd) :
    guts p s = some (decide (nextW p s.cur.wx s.last.wx ≤ p.wMax),
      { s with
        cur := { s.cur with wx := nextW p s.cur.wx s.last.wx, wd := nextW p s.cur.wx s.last.wx }
        vec := { s.vec with wx := nextW p s.cur.wx s.last.wx, wd := nextW p s.cur.wx s.last.wx }
        last := if nextW p s.cur.wx s.last.wx ≤ p.wMax then s.last
          else { s.last with wx := 0, wd := 0 } }) := by
  unfold guts
  rw [if_neg (by simp [h1, h2])]
  simp only [setVecP]
  by_cases h : nextW p s.cur.wx s.last.wx ≤ p.wMax
  · rw [if_neg (not_lt.mpr h)]; simp [h]
  · rw [if_pos (not_le.mp h)]; simp [h]

theorem good_guts (p : Params) (hp : p.Ok) (s s' : PState) (b : Bool) (h : Good p s)
    (hg : guts p s = some (b, s')) : Good p s' := by
  obtain ⟨h1, h2, h3, h4, h5, h6, h7, h8, h9, h10⟩ := h
  rw [guts_spec p s h1 h3] at hg
  obtain ⟨-, rfl⟩ := Prod.mk.inj (Option.some.inj hg)
  have hpos := nextW_pos p hp s.cur.wx s.last.wx h5 h7
  have hlow := nextW_low p hp s.cur.wx s.last.wx h5 h7 h9
  constructor <;> simp only <;> first | assumption | rfl | exact hpos.le | exact Or.inr hlow | skip
  all_goals split_ifs <;> first | assumption | rfl

theorem good_setC (p : Params) (x : ℝ) (hx : 0 ≤ x) (s : PState) (h : Good p s) :
    Good p (setC x s) := by
  obtain ⟨h1, h2, h3, h4, h5, h6, h7, h8, h9, h10⟩ := h
  constructor <;> simp only [setC] <;> assumption

theorem good_setW0 (p : Params) (s : PState) (h : Good p s) : Good p (setW 0 0 s) := by
  obtain ⟨h1, h2, h3, h4, h5, h6, h7, h8, h9, h10⟩ := h
  constructor <;> simp only [setW] <;> first | assumption | exact le_rfl | simp

theorem Good.congr {p : Params} {s s' : PState} (h : Good p s) (h1 : s'.cur = s.cur)
    (h2 : s'.last = s.last) (h3 : s'.mu = s.mu) : Good p s' := by
  obtain ⟨a1, a2, a3, a4, a5, a6, a7, a8, a9, a10⟩ := h
  constructor <;> simp only [h1, h2, h3] <;> assumption

end Hiop.Perturb
