import Verif.Kkt.Lemmas
import Mathlib.Tactic.LinearCombination
import Mathlib.Tactic.FieldSimp
import Mathlib.Algebra.BigOperators.Fin
import Mathlib.Algebra.BigOperators.Field

/-!
# Properties C18–C20 and C40: search directions solve the perturbed Newton system
-/

set_option linter.unusedSectionVars false

namespace Hiop.Kkt

open Hiop.Vec Hiop.Iterate

variable {K : Type*} [Field K] [LinearOrder K] [IsStrictOrderedRing K] {n mc m p q : ℕ}

/-! ## Specification -/

/-- The perturbed Newton equations of the barrier problem at the iterate `it` with right-hand
side `r`, written out row by row. The slack and complementarity rows are present exactly for the
existing bounds; directions of absent slacks and absent bound multipliers are zero. -/
structure FullNewton (b : Bounds K n m) (M : Mats K n mc m) (dl : Deltas K n mc m)
    (it : It K n mc m) (r : Resid K n mc m) (d : It K n mc m) : Prop where
  rowx : ∀ i, (∑ j, M.H i j * d.x j) + dl.wx i * d.x i + (∑ j, M.Jc j i * d.yc j)
    + (∑ j, M.Jd j i * d.yd j) - d.zl i + d.zu i = r.rx i
  rowd : ∀ i, dl.wd i * d.d i - d.yd i - d.vl i + d.vu i = r.rd i
  yc : ∀ i, (∑ j, M.Jc i j * d.x j) - dl.cc i * d.yc i = r.ryc i
  yd : ∀ i, (∑ j, M.Jd i j * d.x j) - d.d i - dl.cd i * d.yd i = r.ryd i
  sxl : ∀ i, b.ixl i = 1 → d.sxl i - d.x i = r.rxl i
  sxu : ∀ i, b.ixu i = 1 → d.sxu i + d.x i = r.rxu i
  sdl : ∀ i, b.idl i = 1 → d.sdl i - d.d i = r.rdl i
  sdu : ∀ i, b.idu i = 1 → d.sdu i + d.d i = r.rdu i
  zl : ∀ i, b.ixl i = 1 → it.zl i * d.sxl i + it.sxl i * d.zl i = r.rszl i
  zu : ∀ i, b.ixu i = 1 → it.zu i * d.sxu i + it.sxu i * d.zu i = r.rszu i
  vl : ∀ i, b.idl i = 1 → it.vl i * d.sdl i + it.sdl i * d.vl i = r.rsvl i
  vu : ∀ i, b.idu i = 1 → it.vu i * d.sdu i + it.sdu i * d.vu i = r.rsvu i
  offxl : ∀ i, b.ixl i = 0 → d.sxl i = 0 ∧ d.zl i = 0
  offxu : ∀ i, b.ixu i = 0 → d.sxu i = 0 ∧ d.zu i = 0
  offdl : ∀ i, b.idl i = 0 → d.sdl i = 0 ∧ d.vl i = 0
  offdu : ∀ i, b.idu i = 0 → d.sdu i = 0 ∧ d.vu i = 0

/-- The barrier diagonal of the variables: multiplier over slack, summed over the bounds. -/
def sigX (b : Bounds K n m) (it : It K n mc m) (i : Fin n) : K :=
  (if b.ixl i = 1 then it.zl i / it.sxl i else 0) + (if b.ixu i = 1 then it.zu i / it.sxu i else 0)

/-- The barrier diagonal of the inequality slacks. -/
def sigD (b : Bounds K n m) (it : It K n mc m) (i : Fin m) : K :=
  (if b.idl i = 1 then it.vl i / it.sdl i else 0) + (if b.idu i = 1 then it.vu i / it.sdu i else 0)

/-- `s` answers only with exact solutions of the symmetric system in `(x, yc, yd)` with Hessian
block `H + diag gx` and dual diagonals `-cc`, `-gd`. -/
def Solves3 (M : Mats K n mc m) (gx : RVec K n) (cc : RVec K mc) (gd : RVec K m)
    (s : Solve3 K n mc m) : Prop :=
  ∀ rx ryc ryd dx dyc dyd, s rx ryc ryd = some (dx, dyc, dyd) →
    (∀ i, (∑ j, M.H i j * dx j) + gx i * dx i + (∑ j, M.Jc j i * dyc j)
      + (∑ j, M.Jd j i * dyd j) = rx i) ∧
    (∀ i, (∑ j, M.Jc i j * dx j) - cc i * dyc i = ryc i) ∧
    (∀ i, (∑ j, M.Jd i j * dx j) - gd i * dyd i = ryd i)

/-- `s` answers only with exact solutions of the symmetric system in `(x, d, yc, yd)`. -/
def Solves4 (M : Mats K n mc m) (gx : RVec K n) (gd : RVec K m) (cc : RVec K mc) (cd : RVec K m)
    (s : Solve4 K n mc m) : Prop :=
  ∀ rx rd ryc ryd dx dd dyc dyd, s rx rd ryc ryd = some (dx, dd, dyc, dyd) →
    (∀ i, (∑ j, M.H i j * dx j) + gx i * dx i + (∑ j, M.Jc j i * dyc j)
      + (∑ j, M.Jd j i * dyd j) = rx i) ∧
    (∀ i, gd i * dd i - dyd i = rd i) ∧
    (∀ i, (∑ j, M.Jc i j * dx j) - cc i * dyc i = ryc i) ∧
    (∀ i, (∑ j, M.Jd i j * dx j) - dd i - cd i * dyd i = ryd i)

/-- Every inequality has at least one bound and the perturbation of the slacks is not negative. -/
structure IneqOk (b : Bounds K n m) (dl : Deltas K n mc m) : Prop where
  bound : ∀ i, b.idl i = 1 ∨ b.idu i = 1
  wd : ∀ i, 0 ≤ dl.wd i

theorem sigD_pos (b : Bounds K n m) (dl : Deltas K n mc m) (it : It K n mc m)
    (hs : SlacksOk b it) (hd : DualsOk b it) (hi : IneqOk b dl) (i : Fin m) :
    0 < sigD b it i + dl.wd i := by
  have h0 := hi.wd i
  have hl : ∀ i, b.idl i = 1 → 0 < it.vl i / it.sdl i :=
    fun i h => div_pos ((hd.vl i).1 h) ((hs.sdl i).1 h)
  have hu : ∀ i, b.idu i = 1 → 0 < it.vu i / it.sdu i :=
    fun i h => div_pos ((hd.vu i).1 h) ((hs.sdu i).1 h)
  unfold sigD
  by_cases h1 : b.idl i = 1 <;> by_cases h2 : b.idu i = 1
  · rw [if_pos h1, if_pos h2]; linarith [hl i h1, hu i h2]
  · rw [if_pos h1, if_neg h2]; linarith [hl i h1]
  · rw [if_neg h1, if_pos h2]; linarith [hu i h2]
  · exact absurd (hi.bound i) (by tauto)

/-! ## C20: recovery of the eliminated directions -/

/-- **C20.** If the directions in `x`, `d`, `yc`, `yd` solve the reduced equations, the recovered
slack and bound-multiplier directions make the whole direction solve the Newton equations, and the
four given directions are returned unchanged. -/
theorem C20_recovery (b : Bounds K n m) (c : Counts) (M : Mats K n mc m) (dl : Deltas K n mc m)
    (it : It K n mc m) (r : Resid K n mc m) (dir : It K n mc m)
    (hp : Patterns b) (hc : CountsOk c b) (hs : SlacksOk b it)
    (hx : ∀ i, (∑ j, M.H i j * dir.x j) + (sigX b it i + dl.wx i) * dir.x i
      + (∑ j, M.Jc j i * dir.yc j) + (∑ j, M.Jd j i * dir.yd j)
      = r.rx i + (if b.ixl i = 1 then (r.rszl i - it.zl i * r.rxl i) / it.sxl i else 0)
        - (if b.ixu i = 1 then (r.rszu i - it.zu i * r.rxu i) / it.sxu i else 0))
    (hd : ∀ i, (sigD b it i + dl.wd i) * dir.d i - dir.yd i
      = r.rd i + (if b.idl i = 1 then (r.rsvl i - it.vl i * r.rdl i) / it.sdl i else 0)
        - (if b.idu i = 1 then (r.rsvu i - it.vu i * r.rdu i) / it.sdu i else 0))
    (hyc : ∀ i, (∑ j, M.Jc i j * dir.x j) - dl.cc i * dir.yc i = r.ryc i)
    (hyd : ∀ i, (∑ j, M.Jd i j * dir.x j) - dir.d i - dl.cd i * dir.yd i = r.ryd i) :
    FullNewton b M dl it r (fullSpace b c it r dir) ∧
    (fullSpace b c it r dir).x = dir.x ∧ (fullSpace b c it r dir).d = dir.d ∧
    (fullSpace b c it r dir).yc = dir.yc ∧ (fullSpace b c it r dir).yd = dir.yd := by
  have ex := fullSpace_x b c hc hp it r dir
  have ed := fullSpace_d b c hc hp it r dir
  have eyc := fullSpace_yc b c hc hp it r dir
  have eyd := fullSpace_yd b c hc hp it r dir
  have esxl := fullSpace_sxl b c hc hp it r dir
  have esxu := fullSpace_sxu b c hc hp it r dir
  have esdl := fullSpace_sdl b c hc hp it r dir
  have esdu := fullSpace_sdu b c hc hp it r dir
  have ezl := fullSpace_zl b c hc hp it r dir
  have ezu := fullSpace_zu b c hc hp it r dir
  have evl := fullSpace_vl b c hc hp it r dir
  have evu := fullSpace_vu b c hc hp it r dir
  refine ⟨?_, ex, ed, eyc, eyd⟩
  constructor
  · intro i
    rw [ex, eyc, eyd, ezl, ezu]
    have h := hx i
    unfold sigX at h
    by_cases h1 : b.ixl i = 1 <;> by_cases h2 : b.ixu i = 1
    · simp only [if_pos h1, if_pos h2] at h ⊢
      linear_combination h
    · simp only [if_pos h1, if_neg h2] at h ⊢
      linear_combination h
    · simp only [if_neg h1, if_pos h2] at h ⊢
      linear_combination h
    · simp only [if_neg h1, if_neg h2] at h ⊢
      linear_combination h
  · intro i
    rw [ed, eyd, evl, evu]
    have h := hd i
    unfold sigD at h
    by_cases h1 : b.idl i = 1 <;> by_cases h2 : b.idu i = 1
    · simp only [if_pos h1, if_pos h2] at h ⊢
      linear_combination h
    · simp only [if_pos h1, if_neg h2] at h ⊢
      linear_combination h
    · simp only [if_neg h1, if_pos h2] at h ⊢
      linear_combination h
    · simp only [if_neg h1, if_neg h2] at h ⊢
      linear_combination h
  · intro i; rw [ex, eyc]; exact hyc i
  · intro i; rw [ex, ed, eyd]; exact hyd i
  · intro i h; rw [ex, esxl, if_pos h]; ring
  · intro i h; rw [ex, esxu, if_pos h]; ring
  · intro i h; rw [ed, esdl, if_pos h]; ring
  · intro i h; rw [ed, esdu, if_pos h]; ring
  · intro i h
    rw [esxl, ezl, if_pos h, if_pos h, mul_div_cancel₀ _ ((hs.sxl i).1 h).ne']; ring
  · intro i h
    rw [esxu, ezu, if_pos h, if_pos h, mul_div_cancel₀ _ ((hs.sxu i).1 h).ne']; ring
  · intro i h
    rw [esdl, evl, if_pos h, if_pos h, mul_div_cancel₀ _ ((hs.sdl i).1 h).ne']; ring
  · intro i h
    rw [esdu, evu, if_pos h, if_pos h, mul_div_cancel₀ _ ((hs.sdu i).1 h).ne']; ring
  · intro i h; rw [esxl, ezl, h]; simp
  · intro i h; rw [esxu, ezu, h]; simp
  · intro i h; rw [esdl, evl, h]; simp
  · intro i h; rw [esdu, evu, h]; simp

/-- Converse of the elimination: every solution of the Newton equations solves the reduced
equations. -/
theorem newton_reduced (b : Bounds K n m) (M : Mats K n mc m) (dl : Deltas K n mc m)
    (it : It K n mc m) (r : Resid K n mc m) (d : It K n mc m)
    (hp : Patterns b) (hs : SlacksOk b it) (h : FullNewton b M dl it r d) :
    (∀ i, (∑ j, M.H i j * d.x j) + (sigX b it i + dl.wx i) * d.x i
      + (∑ j, M.Jc j i * d.yc j) + (∑ j, M.Jd j i * d.yd j)
      = r.rx i + (if b.ixl i = 1 then (r.rszl i - it.zl i * r.rxl i) / it.sxl i else 0)
        - (if b.ixu i = 1 then (r.rszu i - it.zu i * r.rxu i) / it.sxu i else 0)) ∧
    (∀ i, (sigD b it i + dl.wd i) * d.d i - d.yd i
      = r.rd i + (if b.idl i = 1 then (r.rsvl i - it.vl i * r.rdl i) / it.sdl i else 0)
        - (if b.idu i = 1 then (r.rsvu i - it.vu i * r.rdu i) / it.sdu i else 0)) := by
  have kl : ∀ {p : ℕ} (w s z ds dz dx rs rz : RVec K p), IsPattern w → PosOn s w →
      (∀ i, w i = 1 → ds i - dx i = rs i) → (∀ i, w i = 1 → z i * ds i + s i * dz i = rz i) →
      (∀ i, w i = 0 → ds i = 0 ∧ dz i = 0) → ∀ i,
      dz i = (if w i = 1 then (rz i - z i * rs i) / s i else 0)
        - (if w i = 1 then z i / s i else 0) * dx i := by
    intro p w s z ds dz dx rs rz hw hs h1 h2 h3 i
    rcases hw i with h0 | h0
    · simp [h0, (h3 i h0).2]
    · have hs' := ((hs i).1 h0).ne'
      simp only [if_pos h0]
      rw [← h2 i h0, ← h1 i h0]
      field_simp
      ring
  have ku : ∀ {p : ℕ} (w s z ds dz dx rs rz : RVec K p), IsPattern w → PosOn s w →
      (∀ i, w i = 1 → ds i + dx i = rs i) → (∀ i, w i = 1 → z i * ds i + s i * dz i = rz i) →
      (∀ i, w i = 0 → ds i = 0 ∧ dz i = 0) → ∀ i,
      dz i = (if w i = 1 then (rz i - z i * rs i) / s i else 0)
        + (if w i = 1 then z i / s i else 0) * dx i := by
    intro p w s z ds dz dx rs rz hw hs h1 h2 h3 i
    rcases hw i with h0 | h0
    · simp [h0, (h3 i h0).2]
    · have hs' := ((hs i).1 h0).ne'
      simp only [if_pos h0]
      rw [← h2 i h0, ← h1 i h0]
      field_simp
      ring
  constructor
  · intro i
    have h1 := kl b.ixl it.sxl it.zl d.sxl d.zl d.x r.rxl r.rszl hp.ixl hs.sxl h.sxl h.zl h.offxl i
    have h2 := ku b.ixu it.sxu it.zu d.sxu d.zu d.x r.rxu r.rszu hp.ixu hs.sxu h.sxu h.zu h.offxu i
    have h3 := h.rowx i
    unfold sigX
    linear_combination h3 + h1 - h2
  · intro i
    have h1 := kl b.idl it.sdl it.vl d.sdl d.vl d.d r.rdl r.rsvl hp.idl hs.sdl h.sdl h.vl h.offdl i
    have h2 := ku b.idu it.sdu it.vu d.sdu d.vu d.d r.rdu r.rsvu hp.idu hs.sdu h.sdu h.vu h.offdu i
    have h3 := h.rowd i
    unfold sigD
    linear_combination h3 + h1 - h2

/-! ## C18: the (x, yc, yd) reduction -/

/-- **C18.** When the linear solver answers with exact solutions of the reduced symmetric system
(Hessian block plus barrier diagonal plus perturbation; dual diagonals `delta_cc` and
`1/(barrier diagonal + delta_wd) + delta_cd`), the direction handed to the line search solves the
perturbed Newton equations. -/
theorem C18_xycyd (b : Bounds K n m) (c : Counts) (M : Mats K n mc m) (dl : Deltas K n mc m)
    (it : It K n mc m) (r : Resid K n mc m) (dir dir' : It K n mc m) (ddInv : RVec K m)
    (s : Solve3 K n mc m)
    (hp : Patterns b) (hc : CountsOk c b) (hs : SlacksOk b it) (hz : DualsOk b it)
    (hi : IneqOk b dl)
    (hinv : ∀ i, ddInv i = 1 / (sigD b it i + dl.wd i))
    (hsolve : Solves3 M (fun i => sigX b it i + dl.wx i) dl.cc
      (fun i => 1 / (sigD b it i + dl.wd i) + dl.cd i) s)
    (h : xycydDirections b c it ddInv s r dir = some dir') :
    FullNewton b M dl it r dir' := by
  unfold xycydDirections at h
  simp only at h
  generalize hq : s (rxTilde b c it r) r.ryc (axzpy r.ryd 1 (rdTilde b c it r) ddInv) = ans at h
  match ans, hq, h with
  | some (dx, dyc, dyd), hq, h =>
    simp only [Option.some.injEq] at h
    obtain ⟨e1, e2, e3⟩ := hsolve _ _ _ _ _ _ hq
    have hne := fun i => (sigD_pos b dl it hs hz hi i).ne'
    have hdd : ∀ i, componentMult (axpy (rdTilde b c it r) 1 dyd) ddInv i
        = (rdTilde b c it r i + dyd i) / (sigD b it i + dl.wd i) := by
      intro i
      simp [componentMult, axpy, hinv, div_eq_mul_inv]
    rw [← h]
    refine (C20_recovery b c M dl it r _ hp hc hs ?_ ?_ ?_ ?_).1
    · intro i
      have := e1 i
      rw [rxTilde_apply b c hc] at this
      exact this
    · intro i
      change (sigD b it i + dl.wd i) * componentMult (axpy (rdTilde b c it r) 1 dyd) ddInv i - dyd i = _
      rw [hdd, mul_div_cancel₀ _ (hne i), rdTilde_apply b c hc]
      ring
    · exact e2
    · intro i
      have e := e3 i
      change (∑ j, M.Jd i j * dx j) - componentMult (axpy (rdTilde b c it r) 1 dyd) ddInv i
        - dl.cd i * dyd i = r.ryd i
      rw [hdd]
      rw [axzpy_one, hinv] at e
      linear_combination e

/-- **C18, uniqueness.** If moreover the reduced system is nonsingular, the computed direction is
the only solution of the Newton equations. -/
theorem C18_unique (b : Bounds K n m) (c : Counts) (M : Mats K n mc m) (dl : Deltas K n mc m)
    (it : It K n mc m) (r : Resid K n mc m) (dir dir' other : It K n mc m) (ddInv : RVec K m)
    (s : Solve3 K n mc m)
    (hp : Patterns b) (hc : CountsOk c b) (hs : SlacksOk b it) (hz : DualsOk b it)
    (hi : IneqOk b dl)
    (hinv : ∀ i, ddInv i = 1 / (sigD b it i + dl.wd i))
    (hsolve : Solves3 M (fun i => sigX b it i + dl.wx i) dl.cc
      (fun i => 1 / (sigD b it i + dl.wd i) + dl.cd i) s)
    (hns : ∀ (dx : RVec K n) (dyc : RVec K mc) (dyd : RVec K m),
      (∀ i, (∑ j, M.H i j * dx j) + (sigX b it i + dl.wx i) * dx i + (∑ j, M.Jc j i * dyc j)
        + (∑ j, M.Jd j i * dyd j) = 0) →
      (∀ i, (∑ j, M.Jc i j * dx j) - dl.cc i * dyc i = 0) →
      (∀ i, (∑ j, M.Jd i j * dx j) - (1 / (sigD b it i + dl.wd i) + dl.cd i) * dyd i = 0) →
      dx = 0 ∧ dyc = 0 ∧ dyd = 0)
    (h : xycydDirections b c it ddInv s r dir = some dir')
    (hoth : FullNewton b M dl it r other) : other = dir' := by
  have hN := C18_xycyd b c M dl it r dir dir' ddInv s hp hc hs hz hi hinv hsolve h
  have hne := fun i => (sigD_pos b dl it hs hz hi i).ne'
  obtain ⟨a1, a2⟩ := newton_reduced b M dl it r dir' hp hs hN
  obtain ⟨c1, c2⟩ := newton_reduced b M dl it r other hp hs hoth
  have key := hns (fun i => other.x i - dir'.x i) (fun i => other.yc i - dir'.yc i)
    (fun i => other.yd i - dir'.yd i)
    (by
      intro i
      have e1 := a1 i; have e2 := c1 i
      simp only [mul_sub, Finset.sum_sub_distrib]
      linear_combination e2 - e1)
    (by
      intro i
      have e1 := hN.yc i; have e2 := hoth.yc i
      simp only [mul_sub, Finset.sum_sub_distrib]
      linear_combination e2 - e1)
    (by
      intro i
      have e1 := hN.yd i; have e2 := hoth.yd i
      have f1 := a2 i; have f2 := c2 i
      have g : other.d i - dir'.d i = (other.yd i - dir'.yd i) / (sigD b it i + dl.wd i) := by
        rw [eq_div_iff (hne i)]; linear_combination f2 - f1
      simp only [mul_sub, Finset.sum_sub_distrib]
      linear_combination e2 - e1 + g)
  obtain ⟨k1, k2, k3⟩ := key
  have kx : ∀ i, other.x i = dir'.x i := fun i => sub_eq_zero.1 (congrFun k1 i)
  have kyc : ∀ i, other.yc i = dir'.yc i := fun i => sub_eq_zero.1 (congrFun k2 i)
  have kyd : ∀ i, other.yd i = dir'.yd i := fun i => sub_eq_zero.1 (congrFun k3 i)
  have kd : ∀ i, other.d i = dir'.d i := by
    intro i
    have f1 := a2 i; have f2 := c2 i
    have : (sigD b it i + dl.wd i) * (other.d i - dir'.d i) = 0 := by
      linear_combination f2 - f1 + kyd i
    rcases mul_eq_zero.1 this with h | h
    · exact absurd h (hne i)
    · exact sub_eq_zero.1 h
  have kl : ∀ {p : ℕ} (w s z ds dz dx ds' dz' dx' rs rz : RVec K p), IsPattern w → PosOn s w →
      (∀ i, dx i = dx' i) →
      (∀ i, w i = 1 → ds i - dx i = rs i) → (∀ i, w i = 1 → z i * ds i + s i * dz i = rz i) →
      (∀ i, w i = 0 → ds i = 0 ∧ dz i = 0) →
      (∀ i, w i = 1 → ds' i - dx' i = rs i) → (∀ i, w i = 1 → z i * ds' i + s i * dz' i = rz i) →
      (∀ i, w i = 0 → ds' i = 0 ∧ dz' i = 0) → ds = ds' ∧ dz = dz' := by
    intro p w s z ds dz dx ds' dz' dx' rs rz hw hs hx h1 h2 h3 h1' h2' h3'
    have hds : ∀ i, ds i = ds' i := by
      intro i
      rcases hw i with h0 | h0
      · rw [(h3 i h0).1, (h3' i h0).1]
      · have := h1 i h0; have := h1' i h0; have := hx i; linarith
    refine ⟨funext hds, funext fun i => ?_⟩
    rcases hw i with h0 | h0
    · rw [(h3 i h0).2, (h3' i h0).2]
    · have e1 := h2 i h0; have e2 := h2' i h0
      have : s i * (dz i - dz' i) = 0 := by linear_combination e1 - e2 - z i * hds i
      rcases mul_eq_zero.1 this with h | h
      · exact absurd h ((hs i).1 h0).ne'
      · exact sub_eq_zero.1 h
  have ku : ∀ {p : ℕ} (w s z ds dz dx ds' dz' dx' rs rz : RVec K p), IsPattern w → PosOn s w →
      (∀ i, dx i = dx' i) →
      (∀ i, w i = 1 → ds i + dx i = rs i) → (∀ i, w i = 1 → z i * ds i + s i * dz i = rz i) →
      (∀ i, w i = 0 → ds i = 0 ∧ dz i = 0) →
      (∀ i, w i = 1 → ds' i + dx' i = rs i) → (∀ i, w i = 1 → z i * ds' i + s i * dz' i = rz i) →
      (∀ i, w i = 0 → ds' i = 0 ∧ dz' i = 0) → ds = ds' ∧ dz = dz' := by
    intro p w s z ds dz dx ds' dz' dx' rs rz hw hs hx h1 h2 h3 h1' h2' h3'
    exact kl w s z ds dz (fun i => - dx i) ds' dz' (fun i => - dx' i) rs rz hw hs
      (fun i => by rw [hx]) (fun i h => by have := h1 i h; linarith) h2 h3
      (fun i h => by have := h1' i h; linarith) h2' h3'
  obtain ⟨s1, t1⟩ := kl b.ixl it.sxl it.zl _ _ _ _ _ _ _ _ hp.ixl hs.sxl kx hoth.sxl hoth.zl
    hoth.offxl hN.sxl hN.zl hN.offxl
  obtain ⟨s2, t2⟩ := ku b.ixu it.sxu it.zu _ _ _ _ _ _ _ _ hp.ixu hs.sxu kx hoth.sxu hoth.zu
    hoth.offxu hN.sxu hN.zu hN.offxu
  obtain ⟨s3, t3⟩ := kl b.idl it.sdl it.vl _ _ _ _ _ _ _ _ hp.idl hs.sdl kd hoth.sdl hoth.vl
    hoth.offdl hN.sdl hN.vl hN.offdl
  obtain ⟨s4, t4⟩ := ku b.idu it.sdu it.vu _ _ _ _ _ _ _ _ hp.idu hs.sdu kd hoth.sdu hoth.vu
    hoth.offdu hN.sdu hN.vu hN.offdu
  cases other; cases dir'
  simp only at *
  subst s1 s2 s3 s4 t1 t2 t3 t4
  simp [funext kx, funext kd, funext kyc, funext kyd]

/-- The reciprocal built afresh (mixed dense-sparse and dense formulations) is the one C18 asks
for. -/
theorem ddInvFresh_eq (b : Bounds K n m) (it : It K n mc m) (dl : Deltas K n mc m) (i : Fin m) :
    ddInvFresh b it dl i = 1 / (sigD b it i + dl.wd i) := by
  simp only [ddInvFresh, axdzpySel_one, sigD]
  congr 1; ring

/-- The reciprocal of the quasi-Newton formulation is the one C18 asks for without perturbation. -/
theorem ddInvLowRank_eq (b : Bounds K n m) (it : It K n mc m) (i : Fin m) :
    ddInvLowRank b it i = 1 / (sigD b it i + 0) := by
  simp [ddInvLowRank, barrierDd_apply, sigD]

/-! ## C19: the (x, d, yc, yd) reduction and the condensed and normal-equation variants -/

/-- **C19.** When the linear solver answers with exact solutions of the reduced symmetric system
in (x, d, yc, yd), the direction handed to the line search solves the perturbed Newton
equations. -/
theorem C19_xdycyd (b : Bounds K n m) (c : Counts) (M : Mats K n mc m) (dl : Deltas K n mc m)
    (it : It K n mc m) (r : Resid K n mc m) (dir dir' : It K n mc m) (s : Solve4 K n mc m)
    (hp : Patterns b) (hc : CountsOk c b) (hs : SlacksOk b it)
    (hsolve : Solves4 M (fun i => sigX b it i + dl.wx i) (fun i => sigD b it i + dl.wd i)
      dl.cc dl.cd s)
    (h : xdycydDirections b c it s r dir = some dir') :
    FullNewton b M dl it r dir' := by
  unfold xdycydDirections at h
  generalize hq : s (rxTilde b c it r) (rdTilde b c it r) r.ryc r.ryd = ans at h
  match ans, hq, h with
  | some (dx, dd, dyc, dyd), hq, h =>
    simp only [Option.some.injEq] at h
    obtain ⟨e1, e2, e3, e4⟩ := hsolve _ _ _ _ _ _ _ _ hq
    rw [← h]
    refine (C20_recovery b c M dl it r _ hp hc hs ?_ ?_ e3 e4).1
    · intro i
      have := e1 i
      rw [rxTilde_apply b c hc] at this
      exact this
    · intro i
      have := e2 i
      rw [rdTilde_apply b c hc] at this
      exact this

/-- **C19, condensed.** Without equality constraints and with `delta_cd = 0`: a solver for the
condensed matrix `H + D + Jd' * D_d * Jd` yields exact solutions of the (x, d, yd) system. -/
theorem C19_condensed_partial (M : Mats K n 0 m) (gx dx0 wx : RVec K n) (hd : RVec K m)
    (lin : RVec K n → Option (RVec K n)) (hgx : ∀ i, gx i = dx0 i + wx i)
    (hlin : ∀ rhs x, lin rhs = some x →
      ∀ i, ∑ j, condensedMatrix M dx0 wx hd i j * x j = rhs i) :
    Solves4 M gx hd (fun i => i.elim0) (fun _ => 0) (condensedSolve M hd lin) := by
  intro rx rd ryc ryd dx dd dyc dyd h
  unfold condensedSolve at h
  simp only at h
  generalize hq : lin (transTimesVec M.Jd 1 rx 1 (axpy (componentMult ryd hd) 1 rd)) = ans at h
  match ans, hq, h with
  | some x, hq, h =>
    simp only [Option.some.injEq, Prod.mk.injEq] at h
    obtain ⟨rfl, rfl, rfl, rfl⟩ := h
    have e := hlin _ _ hq
    have hdd : ∀ i, timesVec M.Jd (-1) ryd 1 x i = (∑ j, M.Jd i j * x j) - ryd i := by
      intro i; rw [timesVec_apply]; ring
    refine ⟨fun i => ?_, fun i => ?_, fun i => i.elim0, fun i => ?_⟩
    · have e1 := e i
      rw [transTimesVec_apply] at e1
      have split : ∑ j, condensedMatrix M dx0 wx hd i j * x j
          = (∑ j, M.H i j * x j) + gx i * x i
            + ∑ k, M.Jd k i * (hd k * ∑ j, M.Jd k j * x j) := by
        have s1 : ∀ j, condensedMatrix M dx0 wx hd i j * x j
            = M.H i j * x j + (if i = j then (dx0 i + wx i) * x j else 0)
              + ∑ k, M.Jd k i * (hd k * M.Jd k j) * x j := by
          intro j
          unfold condensedMatrix
          rw [add_mul, add_mul, Finset.sum_mul]
          split_ifs <;> simp
        simp only [s1, Finset.sum_add_distrib]
        rw [Finset.sum_comm (f := fun j k => M.Jd k i * (hd k * M.Jd k j) * x j)]
        simp only [Finset.sum_ite_eq, Finset.mem_univ, if_true, hgx]
        congr 1
        refine Finset.sum_congr rfl fun k _ => ?_
        rw [Finset.mul_sum, Finset.mul_sum]
        exact Finset.sum_congr rfl fun j _ => by ring
      rw [split] at e1
      have e2 : ∑ j, M.Jd j i * axpy (componentMult (timesVec M.Jd (-1) ryd 1 x) hd) (-1) rd j
          = (∑ k, M.Jd k i * (hd k * ∑ j, M.Jd k j * x j))
            - ∑ k, M.Jd k i * axpy (componentMult ryd hd) 1 rd k := by
        rw [← Finset.sum_sub_distrib]
        refine Finset.sum_congr rfl fun k _ => ?_
        simp only [axpy, componentMult, hdd]
        ring
      rw [e2]
      simp only [Finset.univ_eq_empty, Finset.sum_empty]
      linear_combination e1
    · simp only [axpy, componentMult, hdd]; ring
    · simp only [hdd]; ring

/-- **C19, condensed, deviation.** The condensed formulation ignores the perturbation `delta_cd`
of the inequality rows: with the exact condensed solver the result solves the system with
`delta_cd = 0` whatever the perturbation, and not the requested one. -/
theorem C19_condensed_ignores_dual_perturbation :
    ∃ (M : Mats ℚ 1 0 1) (gx : RVec ℚ 1) (hd cd : RVec ℚ 1) (lin : RVec ℚ 1 → Option (RVec ℚ 1)),
      (∀ i, 0 < cd i) ∧
      (∀ rhs x, lin rhs = some x → ∀ i, ∑ j, condensedMatrix M gx (fun _ => 0) hd i j * x j = rhs i) ∧
      ¬ Solves4 M gx hd (fun i => i.elim0) cd (condensedSolve M hd lin) := by
  refine ⟨⟨0, 0, fun _ _ => 1⟩, fun _ => 1, fun _ => 1, fun _ => 1, fun r => some (fun _ => r 0 / 2),
    fun _ => by norm_num, ?_, ?_⟩
  · rintro rhs x h i
    simp only [Option.some.injEq] at h
    subst h
    fin_cases i
    simp [condensedMatrix]
    ring
  · intro h
    have := (h (fun _ => 2) (fun _ => 0) (fun i => i.elim0) (fun _ => 0) _ _ _ _ rfl).2.2.2 0
    simp [timesVec, transTimesVec, axpy, componentMult, Matrix.mulVec,
      dotProduct] at this

/-- **C19, normal equations.** For a diagonal Hessian: when the solver answers with exact solutions
of the normal equations, the direction solves the perturbed Newton equations. -/
theorem C19_normal_equations (b : Bounds K n m) (c : Counts) (M : Mats K n mc m)
    (dl : Deltas K n mc m) (it : It K n mc m) (r : Resid K n mc m) (dir dir' : It K n mc m)
    (hx : RVec K n) (hd : RVec K m)
    (lin : RVec K mc → RVec K m → Option (RVec K mc × RVec K m))
    (hp : Patterns b) (hc : CountsOk c b) (hs : SlacksOk b it)
    (hdiag : ∀ i j, i ≠ j → M.H i j = 0)
    (hhx : ∀ i, hx i = sigX b it i + dl.wx i + M.H i i) (hx0 : ∀ i, hx i ≠ 0)
    (hhd : ∀ i, hd i = sigD b it i + dl.wd i) (hd0 : ∀ i, hd i ≠ 0)
    (hlin : ∀ ryc ryd yc yd, lin ryc ryd = some (yc, yd) →
      (∀ i, (∑ k, (∑ j, M.Jc i j * M.Jc k j / hx j) * yc k)
        + (∑ k, (∑ j, M.Jc i j * M.Jd k j / hx j) * yd k) + dl.cc i * yc i = ryc i) ∧
      (∀ i, (∑ k, (∑ j, M.Jd i j * M.Jc k j / hx j) * yc k)
        + (∑ k, (∑ j, M.Jd i j * M.Jd k j / hx j) * yd k) + yd i / hd i + dl.cd i * yd i = ryd i))
    (h : normalDirections b c it M hx hd lin r dir = some dir') :
    FullNewton b M dl it r dir' := by
  unfold normalDirections at h
  simp only at h
  generalize hq : lin (timesVec M.Jc (-1) r.ryc 1 (componentDiv (rxTilde b c it r) hx))
    (axpy (timesVec M.Jd (-1) r.ryd 1 (componentDiv (rxTilde b c it r) hx)) (-1)
      (componentDiv (rdTilde b c it r) hd)) = ans at h
  match ans, hq, h with
  | some (dyc, dyd), hq, h =>
    simp only [Option.some.injEq] at h
    obtain ⟨e1, e2⟩ := hlin _ _ _ _ hq
    set rxt := rxTilde b c it r with hrxt
    set rdt := rdTilde b c it r with hrdt
    have hdx : ∀ j, componentDiv (transTimesVec M.Jd 1 (transTimesVec M.Jc 1 rxt (-1) dyc) (-1) dyd) hx j
        = (rxt j - (∑ k, M.Jc k j * dyc k) - ∑ k, M.Jd k j * dyd k) / hx j := by
      intro j
      simp only [componentDiv, transTimesVec_apply]
      congr 1; ring
    have hJ : ∀ {p : ℕ} (A : Matrix (Fin p) (Fin n) K) (i : Fin p),
        ∑ j, A i j * ((rxt j - (∑ k, M.Jc k j * dyc k) - ∑ k, M.Jd k j * dyd k) / hx j)
        = (∑ j, A i j * (rxt j / hx j)) - (∑ k, (∑ j, A i j * M.Jc k j / hx j) * dyc k)
          - ∑ k, (∑ j, A i j * M.Jd k j / hx j) * dyd k := by
      intro p A i
      have t1 : ∑ k, (∑ j, A i j * M.Jc k j / hx j) * dyc k
          = ∑ j, A i j * (∑ k, M.Jc k j * dyc k) / hx j := by
        simp only [Finset.sum_mul]
        rw [Finset.sum_comm]
        refine Finset.sum_congr rfl fun j _ => ?_
        rw [Finset.mul_sum, Finset.sum_div]
        exact Finset.sum_congr rfl fun k _ => by ring
      have t2 : ∑ k, (∑ j, A i j * M.Jd k j / hx j) * dyd k
          = ∑ j, A i j * (∑ k, M.Jd k j * dyd k) / hx j := by
        simp only [Finset.sum_mul]
        rw [Finset.sum_comm]
        refine Finset.sum_congr rfl fun j _ => ?_
        rw [Finset.mul_sum, Finset.sum_div]
        exact Finset.sum_congr rfl fun k _ => by ring
      rw [t1, t2, ← Finset.sum_sub_distrib, ← Finset.sum_sub_distrib]
      exact Finset.sum_congr rfl fun j _ => by ring
    have hHd : ∀ (v : RVec K n) i, ∑ j, M.H i j * v j = M.H i i * v i := by
      intro v i
      rw [Finset.sum_eq_single i]
      · intro j _ hj; rw [hdiag i j hj.symm, zero_mul]
      · simp
    rw [← h]
    refine (C20_recovery b c M dl it r _ hp hc hs ?_ ?_ ?_ ?_).1
    · intro i
      rw [← rxTilde_apply b c hc, ← hrxt]
      simp only [hHd, hdx]
      have : (M.H i i + (sigX b it i + dl.wx i)) = hx i := by rw [hhx]; ring
      rw [← add_mul, this, mul_div_cancel₀ _ (hx0 i)]
      ring
    · intro i
      rw [← rdTilde_apply b c hc, ← hrdt]
      simp only [componentDiv, axpy]
      rw [← hhd, mul_div_cancel₀ _ (hd0 i)]
      ring
    · intro i
      simp only [hdx]
      rw [hJ]
      have := e1 i
      rw [timesVec_apply] at this
      simp only [componentDiv] at this
      linear_combination -this
    · intro i
      simp only [hdx]
      rw [hJ]
      have := e2 i
      simp only [axpy] at this
      rw [timesVec_apply] at this
      simp only [componentDiv] at this
      simp only [componentDiv, axpy]
      linear_combination -this

/-! ## C40: the full operator and the error measure -/

/-- **C40.** The operator used by the iterative refinement is the Newton matrix: a direction whose
off-bound components vanish is mapped to `r` (off-bound rows of `r` vanishing) exactly if it solves
the Newton equations with right-hand side `r`. -/
theorem C40_full_operator (b : Bounds K n m) (M : Mats K n mc m) (dl : Deltas K n mc m)
    (it d : It K n mc m) (r : Resid K n mc m) (hp : Patterns b)
    (hr : (ZeroOff r.rxl b.ixl ∧ ZeroOff r.rxu b.ixu ∧ ZeroOff r.rdl b.idl ∧ ZeroOff r.rdu b.idu) ∧
      ZeroOff r.rszl b.ixl ∧ ZeroOff r.rszu b.ixu ∧ ZeroOff r.rsvl b.idl ∧ ZeroOff r.rsvu b.idu)
    (hoff : (ZeroOff d.sxl b.ixl ∧ ZeroOff d.sxu b.ixu ∧ ZeroOff d.sdl b.idl ∧ ZeroOff d.sdu b.idu) ∧
      ZeroOff d.zl b.ixl ∧ ZeroOff d.zu b.ixu ∧ ZeroOff d.vl b.idl ∧ ZeroOff d.vu b.idu) :
    kktTimes b M dl it d = r ↔ FullNewton b M dl it r d := by
  obtain ⟨⟨r1, r2, r3, r4⟩, r5, r6, r7, r8⟩ := hr
  obtain ⟨⟨o1, o2, o3, o4⟩, o5, o6, o7, o8⟩ := hoff
  have ksel : ∀ {p : ℕ} (w v rr : RVec K p), IsPattern w → ZeroOff rr w →
      ((Vec.selectPattern v w = rr) ↔ ∀ i, w i = 1 → v i = rr i) := by
    intro p w v rr hw hz
    constructor
    · intro h i hi; rw [← h]; simp [Vec.selectPattern, hi]
    · intro h; funext i
      rcases hw i with h0 | h0
      · simp [Vec.selectPattern, h0, hz i h0]
      · simp [Vec.selectPattern, h0, h i h0]
  have kcomp : ∀ {p : ℕ} (w v rr : RVec K p), IsPattern w → ZeroOff rr w → ZeroOff v w →
      ((v = rr) ↔ ∀ i, w i = 1 → v i = rr i) := by
    intro p w v rr hw hz hv
    constructor
    · rintro rfl i _; rfl
    · intro h; funext i
      rcases hw i with h0 | h0
      · rw [hz i h0, hv i h0]
      · exact h i h0
  have z5 : ZeroOff (axzpy (axzpy (zeroVec n) 1 it.sxl d.zl) 1 it.zl d.sxl) b.ixl := fun i h => by
    simp [axzpy_one, zeroVec, o1 i h, o5 i h]
  have z6 : ZeroOff (axzpy (axzpy (zeroVec n) 1 it.sxu d.zu) 1 it.zu d.sxu) b.ixu := fun i h => by
    simp [axzpy_one, zeroVec, o2 i h, o6 i h]
  have z7 : ZeroOff (axzpy (axzpy (zeroVec m) 1 it.sdl d.vl) 1 it.vl d.sdl) b.idl := fun i h => by
    simp [axzpy_one, zeroVec, o3 i h, o7 i h]
  have z8 : ZeroOff (axzpy (axzpy (zeroVec m) 1 it.sdu d.vu) 1 it.vu d.sdu) b.idu := fun i h => by
    simp [axzpy_one, zeroVec, o4 i h, o8 i h]
  constructor
  · intro h
    have hx := congrArg Resid.rx h
    have hd := congrArg Resid.rd h
    have hyc := congrArg Resid.ryc h
    have hyd := congrArg Resid.ryd h
    have h1 := (ksel _ _ _ hp.ixl r1).1 (congrArg Resid.rxl h)
    have h2 := (ksel _ _ _ hp.ixu r2).1 (congrArg Resid.rxu h)
    have h3 := (ksel _ _ _ hp.idl r3).1 (congrArg Resid.rdl h)
    have h4 := (ksel _ _ _ hp.idu r4).1 (congrArg Resid.rdu h)
    have h5 := (kcomp _ _ _ hp.ixl r5 z5).1 (congrArg Resid.rszl h)
    have h6 := (kcomp _ _ _ hp.ixu r6 z6).1 (congrArg Resid.rszu h)
    have h7 := (kcomp _ _ _ hp.idl r7 z7).1 (congrArg Resid.rsvl h)
    have h8 := (kcomp _ _ _ hp.idu r8 z8).1 (congrArg Resid.rsvu h)
    simp only [kktTimes] at hx hd hyc hyd
    constructor
    · intro i
      have := congrFun hx i
      simp only [axpy, transTimesVec_apply, axzpy_one, timesVec_apply] at this
      linear_combination this
    · intro i
      have := congrFun hd i
      simp only [axpy, axzpy_one, zeroVec] at this
      linear_combination this
    · intro i
      have := congrFun hyc i
      simp only [axzpy_neg_one, timesVec_apply] at this
      linear_combination this
    · intro i
      have := congrFun hyd i
      simp only [axpy, axzpy_neg_one, timesVec_apply] at this
      linear_combination this
    · intro i hi; have := h1 i hi; simp only [axpy] at this; linear_combination this
    · intro i hi; have := h2 i hi; simp only [axpy] at this; linear_combination this
    · intro i hi; have := h3 i hi; simp only [axpy] at this; linear_combination this
    · intro i hi; have := h4 i hi; simp only [axpy] at this; linear_combination this
    · intro i hi; have := h5 i hi; simp only [axzpy_one, zeroVec] at this; linear_combination this
    · intro i hi; have := h6 i hi; simp only [axzpy_one, zeroVec] at this; linear_combination this
    · intro i hi; have := h7 i hi; simp only [axzpy_one, zeroVec] at this; linear_combination this
    · intro i hi; have := h8 i hi; simp only [axzpy_one, zeroVec] at this; linear_combination this
    · exact fun i hi => ⟨o1 i hi, o5 i hi⟩
    · exact fun i hi => ⟨o2 i hi, o6 i hi⟩
    · exact fun i hi => ⟨o3 i hi, o7 i hi⟩
    · exact fun i hi => ⟨o4 i hi, o8 i hi⟩
  · intro h
    have ext : ∀ (a c : Resid K n mc m), a.rx = c.rx → a.rd = c.rd → a.ryc = c.ryc →
        a.ryd = c.ryd → a.rxl = c.rxl → a.rxu = c.rxu → a.rdl = c.rdl → a.rdu = c.rdu →
        a.rszl = c.rszl → a.rszu = c.rszu → a.rsvl = c.rsvl → a.rsvu = c.rsvu → a = c := by
      intro a c; cases a; cases c; simp only; intros; subst_vars; rfl
    apply ext <;> simp only [kktTimes]
    · funext i; rw [← h.rowx i]
      simp only [axpy, transTimesVec_apply, axzpy_one, timesVec_apply]; ring
    · funext i; rw [← h.rowd i]; simp only [axpy, axzpy_one, zeroVec]; ring
    · funext i; rw [← h.yc i]; simp only [axzpy_neg_one, timesVec_apply]; ring
    · funext i; rw [← h.yd i]; simp only [axpy, axzpy_neg_one, timesVec_apply]; ring
    · refine (ksel _ _ _ hp.ixl r1).2 fun i hi => ?_
      rw [← h.sxl i hi]; simp only [axpy]; ring
    · refine (ksel _ _ _ hp.ixu r2).2 fun i hi => ?_
      rw [← h.sxu i hi]; simp only [axpy]; ring
    · refine (ksel _ _ _ hp.idl r3).2 fun i hi => ?_
      rw [← h.sdl i hi]; simp only [axpy]; ring
    · refine (ksel _ _ _ hp.idu r4).2 fun i hi => ?_
      rw [← h.sdu i hi]; simp only [axpy]; ring
    · refine (kcomp _ _ _ hp.ixl r5 z5).2 fun i hi => ?_
      rw [← h.zl i hi]; simp only [axzpy_one, zeroVec]; ring
    · refine (kcomp _ _ _ hp.ixu r6 z6).2 fun i hi => ?_
      rw [← h.zu i hi]; simp only [axzpy_one, zeroVec]; ring
    · refine (kcomp _ _ _ hp.idl r7 z7).2 fun i hi => ?_
      rw [← h.vl i hi]; simp only [axzpy_one, zeroVec]; ring
    · refine (kcomp _ _ _ hp.idu r8 z8).2 fun i hi => ?_
      rw [← h.vu i hi]; simp only [axzpy_one, zeroVec]; ring

/-! ## A concrete instance -/

/-- One variable with a lower bound, one equality, one inequality with a lower bound. -/
def exB : Bounds ℚ 1 1 :=
  ⟨fun _ => 0, fun _ => 0, fun _ => 1, fun _ => 0, fun _ => 0, fun _ => 0, fun _ => 1, fun _ => 0⟩

/-- An interior iterate: slacks and multipliers equal to one. -/
def exIt : It ℚ 1 1 1 :=
  ⟨fun _ => 1, fun _ => 1, fun _ => 1, fun _ => 0, fun _ => 1, fun _ => 0, fun _ => 1, fun _ => 1,
    fun _ => 1, fun _ => 0, fun _ => 1, fun _ => 0⟩

/-- Hessian and Jacobians all equal to one. -/
def exM : Mats ℚ 1 1 1 := ⟨fun _ _ => 1, fun _ _ => 1, fun _ _ => 1⟩

/-- All perturbations equal to one. -/
def exDl : Deltas ℚ 1 1 1 := ⟨fun _ => 1, fun _ => 1, fun _ => 1, fun _ => 1⟩

/-- The matching counters. -/
def exC : Counts := ⟨1, 0, 1, 0⟩

/-- A right-hand side. -/
def exR : Resid ℚ 1 1 1 :=
  ⟨fun _ => 1, fun _ => 2, fun _ => 3, fun _ => 4, fun _ => 5, fun _ => 0, fun _ => 6, fun _ => 0,
    fun _ => 7, fun _ => 0, fun _ => 8, fun _ => 0⟩

/-- An exact solver of the (x, yc, yd) system of the instance:
`[3 1 1; 1 -1 0; 1 0 -3/2]`. -/
def exSolve : Solve3 ℚ 1 1 1 := fun rx ryc ryd =>
  let dx := (3 * rx 0 + 3 * ryc 0 + 2 * ryd 0) / 14
  some (fun _ => dx, fun _ => dx - ryc 0, fun _ => (dx - ryd 0) / (3 / 2))

theorem exB_patterns : Patterns exB := by
  constructor <;> intro i <;> simp [exB]

theorem exC_counts : CountsOk exC exB := by
  constructor <;> simp [CountOk, exC, exB]

theorem exIt_slacks : SlacksOk exB exIt := by
  constructor <;> intro i <;> simp [exB, exIt]

theorem exIt_duals : DualsOk exB exIt := by
  constructor <;> intro i <;> simp [exB, exIt]

theorem exDl_ineq : IneqOk exB exDl := by
  constructor <;> intro i <;> simp [exB, exDl]

theorem exSolve_solves : Solves3 exM (fun i => sigX exB exIt i + exDl.wx i) exDl.cc
    (fun i => 1 / (sigD exB exIt i + exDl.wd i) + exDl.cd i) exSolve := by
  intro rx ryc ryd dx dyc dyd h
  simp only [exSolve, Option.some.injEq, Prod.mk.injEq] at h
  obtain ⟨rfl, rfl, rfl⟩ := h
  refine ⟨fun i => ?_, fun i => ?_, fun i => ?_⟩ <;> fin_cases i <;>
    simp [exM, exB, exIt, exDl, sigX, sigD] <;> ring

/-- C18 applies to the instance: its hypotheses are met and a direction is produced. -/
example : ∃ dir', xycydDirections exB exC exIt (ddInvFresh exB exIt exDl) exSolve exR exIt
    = some dir' ∧ FullNewton exB exM exDl exIt exR dir' :=
  ⟨_, rfl, C18_xycyd exB exC exM exDl exIt exR exIt _ _ _ exB_patterns exC_counts exIt_slacks
    exIt_duals exDl_ineq (ddInvFresh_eq _ _ _) exSolve_solves rfl⟩

/-- An exact solver of the (x, d, yc, yd) system of the instance, by elimination of `d`. -/
def exSolve4 : Solve4 ℚ 1 1 1 := fun rx rd ryc ryd =>
  let dx := (3 * rx 0 + 3 * ryc 0 + 2 * (ryd 0 + rd 0 / 2)) / 14
  let dyd := (dx - (ryd 0 + rd 0 / 2)) / (3 / 2)
  some (fun _ => dx, fun _ => (rd 0 + dyd) / 2, fun _ => dx - ryc 0, fun _ => dyd)

theorem exSolve4_solves : Solves4 exM (fun i => sigX exB exIt i + exDl.wx i)
    (fun i => sigD exB exIt i + exDl.wd i) exDl.cc exDl.cd exSolve4 := by
  intro rx rd ryc ryd dx dd dyc dyd h
  simp only [exSolve4, Option.some.injEq, Prod.mk.injEq] at h
  obtain ⟨rfl, rfl, rfl, rfl⟩ := h
  refine ⟨fun i => ?_, fun i => ?_, fun i => ?_, fun i => ?_⟩ <;> fin_cases i <;>
    simp [exM, exB, exIt, exDl, sigX, sigD] <;> ring

/-- C19 applies to the instance. -/
example : ∃ dir', xdycydDirections exB exC exIt exSolve4 exR exIt = some dir' ∧
    FullNewton exB exM exDl exIt exR dir' :=
  ⟨_, rfl, C19_xdycyd exB exC exM exDl exIt exR exIt _ _ exB_patterns exC_counts exIt_slacks
    exSolve4_solves rfl⟩

/-- The uniqueness hypothesis of `C18_unique` holds for the instance. -/
example (other : It ℚ 1 1 1) (h : FullNewton exB exM exDl exIt exR other) :
    some other = xycydDirections exB exC exIt (ddInvFresh exB exIt exDl) exSolve exR exIt := by
  have hq : ∃ d, xycydDirections exB exC exIt (ddInvFresh exB exIt exDl) exSolve exR exIt
      = some d := ⟨_, rfl⟩
  obtain ⟨d, hq⟩ := hq
  rw [hq]
  refine congrArg some (C18_unique exB exC exM exDl exIt exR exIt d other _ _ exB_patterns exC_counts
    exIt_slacks exIt_duals exDl_ineq (ddInvFresh_eq _ _ _) exSolve_solves ?_ hq h)
  intro dx dyc dyd h1 h2 h3
  have a := h1 0
  have b := h2 0
  have c := h3 0
  simp [exM, exB, exIt, exDl, sigX, sigD] at a b c
  have hx : dx 0 = 0 := by linarith
  have hc : dyc 0 = 0 := by linarith
  have hd : dyd 0 = 0 := by linarith
  refine ⟨funext fun i => ?_, funext fun i => ?_, funext fun i => ?_⟩ <;> fin_cases i <;> assumption

/-- An exact solver of the normal equations of the instance: the matrix is
`[4/3 1/3; 1/3 11/6]`, with determinant `7/3`. -/
def exNormal : RVec ℚ 1 → RVec ℚ 1 → Option (RVec ℚ 1 × RVec ℚ 1) := fun a b =>
  some (fun _ => (11 / 6 * a 0 - 1 / 3 * b 0) / (7 / 3),
    fun _ => (4 / 3 * b 0 - 1 / 3 * a 0) / (7 / 3))

/-- The normal-equation hypotheses are met by the instance (one variable, so the Hessian is
diagonal). -/
example : ∃ dir', normalDirections exB exC exIt exM (fun _ => 3) (fun _ => 2) exNormal exR exIt
    = some dir' ∧ FullNewton exB exM exDl exIt exR dir' := by
  refine ⟨_, rfl, C19_normal_equations exB exC exM exDl exIt exR exIt _ (fun _ => 3) (fun _ => 2)
    exNormal exB_patterns exC_counts exIt_slacks ?_ ?_ ?_ ?_ ?_ ?_ rfl⟩
  · intro i j h; exact absurd (Subsingleton.elim i j) h
  · intro i; simp [sigX, exB, exIt, exDl, exM]; norm_num
  · intro i; norm_num
  · intro i; simp [sigD, exB, exIt, exDl]; norm_num
  · intro i; norm_num
  · intro a b yc yd h
    simp only [exNormal, Option.some.injEq, Prod.mk.injEq] at h
    obtain ⟨rfl, rfl⟩ := h
    refine ⟨fun i => ?_, fun i => ?_⟩ <;> fin_cases i <;> simp [exM, exDl] <;> ring

/-- The condensed system of the instance without its equality: matrix `1 + 2 + 2 = 5`. -/
example : Solves4 (⟨fun _ _ => 1, fun i _ => i.elim0, fun _ _ => 1⟩ : Mats ℚ 1 0 1) (fun _ => 2)
    (fun _ => 2) (fun i => i.elim0) (fun _ => 0)
    (condensedSolve ⟨fun _ _ => 1, fun i _ => i.elim0, fun _ _ => 1⟩ (fun _ => 2)
      (fun r => some (fun _ => r 0 / 5))) := by
  refine C19_condensed_partial _ _ (fun _ => 1) (fun _ => 1) _ _ (fun i => by norm_num) ?_
  rintro rhs x h i
  simp only [Option.some.injEq] at h
  subst h
  fin_cases i
  simp [condensedMatrix]
  ring

/-- C40 on the instance: the direction of C18 is mapped to the right-hand side. -/
example : ∃ dir', xycydDirections exB exC exIt (ddInvFresh exB exIt exDl) exSolve exR exIt
    = some dir' ∧ kktTimes exB exM exDl exIt dir' = exR := by
  have hN := C18_xycyd exB exC exM exDl exIt exR exIt _ _ _ exB_patterns exC_counts exIt_slacks
    exIt_duals exDl_ineq (ddInvFresh_eq _ _ _) exSolve_solves rfl
  refine ⟨_, rfl, (C40_full_operator exB exM exDl exIt _ exR exB_patterns ?_ ?_).2 hN⟩
  · refine ⟨⟨?_, ?_, ?_, ?_⟩, ?_, ?_, ?_, ?_⟩ <;> intro i h <;> simp_all [exB, exR]
  · exact ⟨⟨fun i h => (hN.offxl i h).1, fun i h => (hN.offxu i h).1, fun i h => (hN.offdl i h).1,
      fun i h => (hN.offdu i h).1⟩, fun i h => (hN.offxl i h).2, fun i h => (hN.offxu i h).2,
      fun i h => (hN.offdl i h).2, fun i h => (hN.offdu i h).2⟩

end Hiop.Kkt
