import Verif.Refine.Model
import Verif.Krylov.Props
import Verif.Kkt.Props

/-!
# C78: iterative refinement of the search direction
-/

set_option linter.unusedSectionVars false

namespace Hiop.Refine

open Hiop.Vec Hiop.Iterate Hiop.Kkt Hiop.Krylov
open Hiop.Compound (Comp flat place sizes ofIterate ofResid flat_place ext_place sum_place)

variable {n mc m : ℕ}

/-! ## Specification -/

/-- The rows of a residual that belong to missing bounds are zero. -/
structure ResidOff {K : Type*} [Field K] (b : Bounds K n m) (r : Resid K n mc m) : Prop where
  slack : ZeroOff r.rxl b.ixl ∧ ZeroOff r.rxu b.ixu ∧ ZeroOff r.rdl b.idl ∧ ZeroOff r.rdu b.idu
  comp : ZeroOff r.rszl b.ixl ∧ ZeroOff r.rszu b.ixu ∧ ZeroOff r.rsvl b.idl ∧ ZeroOff r.rsvu b.idu

/-- The components of a direction that belong to missing bounds are zero. -/
structure DirOff {K : Type*} [Field K] (b : Bounds K n m) (d : It K n mc m) : Prop where
  slack : ZeroOff d.sxl b.ixl ∧ ZeroOff d.sxu b.ixu ∧ ZeroOff d.sdl b.idl ∧ ZeroOff d.sdu b.idu
  comp : ZeroOff d.zl b.ixl ∧ ZeroOff d.zu b.ixu ∧ ZeroOff d.vl b.idl ∧ ZeroOff d.vu b.idu

/-- The direct computation of directions answers only with solutions of the Newton equations. -/
def Exact {K : Type*} [Field K] (b : Bounds K n m) (M : Mats K n mc m) (dl : Deltas K n mc m)
    (it : It K n mc m) (dirs : Resid K n mc m → Option (It K n mc m)) : Prop :=
  ∀ r d, dirs r = some d → FullNewton b M dl it r d

/-- Sum of the squares of the defects of the twelve blocks of Newton equations at the direction `d`
with right-hand side `r`; `k` is what the equations evaluate to at `d`. -/
def sq12 (r k : Resid ℝ n mc m) : ℝ :=
  (∑ i, (r.rx i - k.rx i) ^ 2) + (∑ i, (r.rd i - k.rd i) ^ 2) + (∑ i, (r.ryc i - k.ryc i) ^ 2)
    + (∑ i, (r.ryd i - k.ryd i) ^ 2) + (∑ i, (r.rxl i - k.rxl i) ^ 2)
    + (∑ i, (r.rxu i - k.rxu i) ^ 2) + (∑ i, (r.rdl i - k.rdl i) ^ 2)
    + (∑ i, (r.rdu i - k.rdu i) ^ 2) + (∑ i, (r.rszl i - k.rszl i) ^ 2)
    + (∑ i, (r.rszu i - k.rszu i) ^ 2) + (∑ i, (r.rsvl i - k.rsvl i) ^ 2)
    + (∑ i, (r.rsvu i - k.rsvu i) ^ 2)

/-- The left-hand sides of the Newton equations at `d`, row by row. -/
noncomputable def newtonLhs (b : Bounds ℝ n m) (M : Mats ℝ n mc m) (dl : Deltas ℝ n mc m) (it d : It ℝ n mc m) :
    Resid ℝ n mc m where
  rx := fun i => (∑ j, M.H i j * d.x j) + dl.wx i * d.x i + (∑ j, M.Jc j i * d.yc j)
    + (∑ j, M.Jd j i * d.yd j) - d.zl i + d.zu i
  rd := fun i => dl.wd i * d.d i - d.yd i - d.vl i + d.vu i
  ryc := fun i => (∑ j, M.Jc i j * d.x j) - dl.cc i * d.yc i
  ryd := fun i => (∑ j, M.Jd i j * d.x j) - d.d i - dl.cd i * d.yd i
  rxl := fun i => if b.ixl i = 0 then 0 else d.sxl i - d.x i
  rxu := fun i => if b.ixu i = 0 then 0 else d.sxu i + d.x i
  rdl := fun i => if b.idl i = 0 then 0 else d.sdl i - d.d i
  rdu := fun i => if b.idu i = 0 then 0 else d.sdu i + d.d i
  rszl := fun i => it.zl i * d.sxl i + it.sxl i * d.zl i
  rszu := fun i => it.zu i * d.sxu i + it.sxu i * d.zu i
  rsvl := fun i => it.vl i * d.sdl i + it.sdl i * d.vl i
  rsvu := fun i => it.vu i * d.sdu i + it.sdu i * d.vu i

/-! ## Lemmas on compound vectors -/

section Flat
variable {K : Type*}

@[simp] theorem asIt_flat (d : It K n mc m) : asIt (flat (ofIterate d)) = d := by
  have h : ∀ i, part (flat (ofIterate d)) i = (ofIterate d).parts i := fun i => by
    funext k; exact flat_place _ _ _
  simp only [asIt, h]
  rfl

@[simp] theorem asResid_flat (r : Resid K n mc m) : asResid (flat (ofResid r)) = r := by
  have h : ∀ i, part (flat (ofResid r)) i = (ofResid r).parts i := fun i => by
    funext k; exact flat_place _ _ _
  simp only [asResid, h]
  rfl

@[simp] theorem flat_asIt (v : RVec K (Dim n mc m)) : flat (ofIterate (asIt v)) = v := by
  apply ext_place
  intro i k
  rw [flat_place]
  fin_cases i <;> rfl

@[simp] theorem flat_asResid (v : RVec K (Dim n mc m)) : flat (ofResid (asResid v)) = v := by
  apply ext_place
  intro i k
  rw [flat_place]
  fin_cases i <;> rfl

end Flat

theorem twonorm_zero {N : ℕ} : QN.twonorm (0 : RVec ℝ N) = 0 := by
  simp [QN.twonorm, dot_eq_sum]

theorem dot_self_eq_zero {N : ℕ} (v : RVec ℝ N) (h : Vec.dot v v = 0) : v = 0 := by
  rw [dot_eq_sum] at h
  have := (Finset.sum_eq_zero_iff_of_nonneg fun i _ => mul_self_nonneg (v i)).1 h
  funext i
  exact mul_self_eq_zero.1 (this i (Finset.mem_univ i))

theorem dot_self_nonneg {N : ℕ} (v : RVec ℝ N) : 0 ≤ Vec.dot v v := by
  rw [dot_eq_sum]; exact Finset.sum_nonneg fun i _ => mul_self_nonneg (v i)

theorem twonorm_eq_zero {N : ℕ} (v : RVec ℝ N) (h : QN.twonorm v = 0) : v = 0 :=
  dot_self_eq_zero v ((Real.sqrt_eq_zero (dot_self_nonneg v)).1 h)

theorem sq_twonorm {N : ℕ} (v : RVec ℝ N) : QN.twonorm v ^ 2 = Vec.dot v v :=
  Real.sq_sqrt (dot_self_nonneg v)

theorem twonorm_nonneg {N : ℕ} (v : RVec ℝ N) : 0 ≤ QN.twonorm v := Real.sqrt_nonneg _

theorem defect_sq (A : RVec ℝ (Dim n mc m) → RVec ℝ (Dim n mc m)) (r k : Resid ℝ n mc m)
    (x : RVec ℝ (Dim n mc m)) (h : A x = flat (ofResid k)) :
    QN.twonorm (defect A (flat (ofResid r)) x) ^ 2 = sq12 r k := by
  rw [sq_twonorm, dot_eq_sum, sum_place]
  simp only [defect, h, flat_place]
  rw [Fin.sum_univ_succ, Fin.sum_univ_succ, Fin.sum_univ_succ, Fin.sum_univ_succ,
    Fin.sum_univ_succ, Fin.sum_univ_succ, Fin.sum_univ_succ, Fin.sum_univ_succ,
    Fin.sum_univ_succ, Fin.sum_univ_succ, Fin.sum_univ_succ, Fin.sum_univ_succ]
  simp only [Finset.univ_eq_empty, Finset.sum_empty, add_zero, ← add_assoc, ← pow_two]
  rfl

/-- Square of the Euclidean length of a residual. -/
def normSq (r : Resid ℝ n mc m) : ℝ :=
  (∑ i, r.rx i ^ 2) + (∑ i, r.rd i ^ 2) + (∑ i, r.ryc i ^ 2) + (∑ i, r.ryd i ^ 2)
    + (∑ i, r.rxl i ^ 2) + (∑ i, r.rxu i ^ 2) + (∑ i, r.rdl i ^ 2) + (∑ i, r.rdu i ^ 2)
    + (∑ i, r.rszl i ^ 2) + (∑ i, r.rszu i ^ 2) + (∑ i, r.rsvl i ^ 2) + (∑ i, r.rsvu i ^ 2)

theorem dot_resid (r : Resid ℝ n mc m) : Vec.dot (flat (ofResid r)) (flat (ofResid r)) = normSq r := by
  rw [dot_eq_sum, sum_place]
  simp only [flat_place]
  rw [Fin.sum_univ_succ, Fin.sum_univ_succ, Fin.sum_univ_succ, Fin.sum_univ_succ,
    Fin.sum_univ_succ, Fin.sum_univ_succ, Fin.sum_univ_succ, Fin.sum_univ_succ,
    Fin.sum_univ_succ, Fin.sum_univ_succ, Fin.sum_univ_succ, Fin.sum_univ_succ]
  simp only [Finset.univ_eq_empty, Finset.sum_empty, add_zero, ← add_assoc, ← pow_two]
  rfl

theorem kktTimes_lhs (b : Bounds ℝ n m) (M : Mats ℝ n mc m) (dl : Deltas ℝ n mc m)
    (it d : It ℝ n mc m) : kktTimes b M dl it d = newtonLhs b M dl it d := by
  simp only [kktTimes, newtonLhs, Resid.mk.injEq]
  refine ⟨?_, ?_, ?_, ?_, ?_, ?_, ?_, ?_, ?_, ?_, ?_, ?_⟩ <;> funext i <;>
    simp only [axzpy_one, axzpy_neg_one, axpy, zeroVec, timesVec_apply, transTimesVec_apply,
      Vec.selectPattern] <;> first | ring | (split_ifs <;> ring)

theorem kktOpr_lin (b : Bounds ℝ n m) (M : Mats ℝ n mc m) (dl : Deltas ℝ n mc m)
    (it : It ℝ n mc m) : LinOp (kktOpr b M dl it) := by
  intro x y a
  apply ext_place
  intro i k
  simp only [kktOpr, flat_place, kktTimes_lhs]
  have hs : ∀ {p : ℕ} (c u w : Fin p → ℝ),
      ∑ j, c j * (u j + a * w j) = (∑ j, c j * u j) + a * ∑ j, c j * w j := by
    intro p c u w
    rw [Finset.mul_sum, ← Finset.sum_add_distrib]
    exact Finset.sum_congr rfl fun j _ => by ring
  have hp : ∀ j, part (fun i => x i + a * y i) j = fun k => part x j k + a * part y j k :=
    fun _ => rfl
  fin_cases i <;> simp only [ofResid, newtonLhs, asIt, hp] <;>
    first
    | (erw [hs, hs, hs]; ring1)
    | (erw [hs]; ring1)
    | ring1
    | (split_ifs <;> ring1)

theorem lin_zero {N : ℕ} {A : RVec ℝ N → RVec ℝ N} (h : LinOp A) : A 0 = 0 := by
  have := h 0 0 (-1)
  funext i
  have e := congrFun this i
  have z : (fun i => (0 : RVec ℝ N) i + -1 * (0 : RVec ℝ N) i) = 0 := by funext j; simp
  rw [z] at e
  simp only [Pi.zero_apply]
  linarith

/-! ## The method with an exact preconditioner -/

/-- One half step of BiCGStab from zero with a preconditioner that inverts the operator at the
right-hand side. -/
theorem bicg_exact {N : ℕ} (p : Par ℝ N) (junk : St ℝ N) (b : RVec ℝ N)
    (hn : p.nrm = QN.twonorm) (hd : p.dot = Vec.dot) (hA : p.A 0 = 0)
    (hinv : p.A (precond p b) = b) (hb : b ≠ 0) (hbig : Vec.dot b b ≤ 10 ^ 40)
    (ht : 0 ≤ p.tol) (ht1 : p.tol < 1) (hm : 0 < p.maxit) :
    (bicg p junk (fun _ => 0) b).ok = true ∧ (bicg p junk (fun _ => 0) b).x = precond p b := by
  have hz : (fun _ => 0 : RVec ℝ N) = 0 := rfl
  have hnb : QN.twonorm b ≠ 0 := fun h => hb (twonorm_eq_zero b h)
  have hpos : 0 < QN.twonorm b := lt_of_le_of_ne (twonorm_nonneg b) (Ne.symm hnb)
  have hdd : Vec.dot b b ≠ 0 := fun h => hb (dot_self_eq_zero b h)
  have hres : residual p b 0 = b := by
    rw [residual_eq]; funext i; simp [defect, hA]
  have htolb : 0 ≤ p.tol * QN.twonorm b := mul_nonneg ht hpos.le
  have hlt : ¬ QN.twonorm b ≤ p.tol * QN.twonorm b := by
    push Not
    calc p.tol * QN.twonorm b < 1 * QN.twonorm b := mul_lt_mul_of_pos_right ht1 hpos
      _ = _ := one_mul _
  have hab : ¬ |Vec.dot b b| > 10 ^ 40 := by
    rw [abs_of_nonneg (dot_self_nonneg b)]; exact not_lt.2 hbig
  obtain ⟨k, hk⟩ : ∃ k, p.maxit = k + 1 := ⟨p.maxit - 1, by omega⟩
  have hx : axpy (0 : RVec ℝ N) 1 (precond p b) = precond p b := by
    funext i; simp [axpy]
  have hr : axpy b (-1) b = 0 := by funext i; simp [axpy]
  have hr2 : residual p b (precond p b) = 0 := by
    rw [residual_eq]; funext i; simp [defect, hinv]
  have e1 : (1 : ℝ) ≤ 10 ^ 20 := by norm_num
  have hstep : ∀ s : St ℝ N, s.b = b → s.xk = 0 → s.res = b →
      ∃ s', bicgStep p b (p.tol * QN.twonorm b) 0 s = (s', true) ∧ s'.flag = 0 ∧
        s'.xk = precond p b := by
    intro s h1 h2 h3
    simp only [bicgStep, hd, h3, hdd, hab, or_self, if_false, bicgDirection, ne_eq,
      not_true_eq_false, false_and, if_true, hinv, div_self hdd, abs_one, not_lt.2 e1,
      gt_iff_lt, bicgFirst, h2, hx, hr, check, hn, twonorm_zero, htolb, true_or, h1, hr2]
    exact ⟨_, rfl, rfl, rfl⟩
  obtain ⟨s', a1, a2, a3⟩ := hstep (Krylov.start p junk b 0) rfl rfl hres
  have hres' : (Krylov.start p junk b 0).res = b := hres
  unfold bicg
  simp only [hn, if_neg hnb, hz, hres', if_neg hlt, hk, loop]
  rw [a1]
  simp only [if_true, finish, a2]
  exact ⟨trivial, a3⟩

/-! ## C78 -/

theorem precOpr_flat (dirs : Resid ℝ n mc m → Option (It ℝ n mc m))
    (left : Resid ℝ n mc m → It ℝ n mc m) {r : Resid ℝ n mc m} {d : It ℝ n mc m}
    (hd : dirs r = some d) : precOpr dirs left (flat (ofResid r)) = flat (ofIterate d) := by
  unfold precOpr
  rw [asResid_flat, hd, Option.getD_some]

theorem irPar_spec (b : Bounds ℝ n m) (M : Mats ℝ n mc m) (dl : Deltas ℝ n mc m)
    (it : It ℝ n mc m) (dirs : Resid ℝ n mc m → Option (It ℝ n mc m))
    (left : Resid ℝ n mc m → It ℝ n mc m) (tol eps : ℝ) (maxit : ℕ) :
    let p := irPar b M dl it dirs left tol eps maxit
    p.A = kktOpr b M dl it ∧ (∀ v, precond p v = precOpr dirs left v) ∧ p.nrm = QN.twonorm ∧
      p.dot = Vec.dot ∧ p.tol = tol ∧ p.maxit = maxit :=
  by
  simp only [irPar, precond, true_and, and_self, implies_true]

/-- **C78, the preconditioner inverts the operator.** The refinement multiplies by the Newton matrix
and applies the direct computation as its preconditioner. If the direct computation is exact, the
matrix maps its answer for `r` back to `r`. -/
theorem C78_inverse (b : Bounds ℝ n m) (M : Mats ℝ n mc m) (dl : Deltas ℝ n mc m)
    (it : It ℝ n mc m) (dirs : Resid ℝ n mc m → Option (It ℝ n mc m))
    (left : Resid ℝ n mc m → It ℝ n mc m) (hp : Patterns b) (hex : Exact b M dl it dirs)
    (r : Resid ℝ n mc m) (hr : ResidOff b r) (d : It ℝ n mc m) (hd : dirs r = some d) :
    kktOpr b M dl it (precOpr dirs left (flat (ofResid r))) = flat (ofResid r) := by
  have hN := hex r d hd
  have hoff : (ZeroOff d.sxl b.ixl ∧ ZeroOff d.sxu b.ixu ∧ ZeroOff d.sdl b.idl ∧
      ZeroOff d.sdu b.idu) ∧ ZeroOff d.zl b.ixl ∧ ZeroOff d.zu b.ixu ∧ ZeroOff d.vl b.idl ∧
      ZeroOff d.vu b.idu :=
    ⟨⟨fun i h => (hN.offxl i h).1, fun i h => (hN.offxu i h).1, fun i h => (hN.offdl i h).1,
      fun i h => (hN.offdu i h).1⟩, fun i h => (hN.offxl i h).2, fun i h => (hN.offxu i h).2,
      fun i h => (hN.offdl i h).2, fun i h => (hN.offdu i h).2⟩
  rw [precOpr_flat dirs left hd, kktOpr, asIt_flat]
  rw [(C40_full_operator b M dl it d r hp ⟨hr.slack, hr.comp⟩ hoff).2 hN]

/-- **C78, exact inner solve.** With the outer refinement switched on and an exact direct
computation, the caller's object receives the direction of the direct computation, and success is
reported: refinement neither changes a correct direction nor lets one through that is not a solution.
The right-hand side has length at most `10^20`. -/
theorem C78_same_direction_partial (b : Bounds ℝ n m) (M : Mats ℝ n mc m) (dl : Deltas ℝ n mc m)
    (it : It ℝ n mc m) (dirs : Resid ℝ n mc m → Option (It ℝ n mc m))
    (left : Resid ℝ n mc m → It ℝ n mc m) (tol eps : ℝ) (maxit : ℕ) (junk : St ℝ (Dim n mc m))
    (mem : Mem ℝ (Dim n mc m)) (dir : ℕ) (r : Resid ℝ n mc m) (d : It ℝ n mc m)
    (hp : Patterns b) (hex : Exact b M dl it dirs) (hr : ResidOff b r) (hd : dirs r = some d)
    (hm : 0 < maxit) (ht : 0 ≤ tol) (ht1 : tol < 1) (h0 : normSq r ≠ 0)
    (hbig : normSq r ≤ 10 ^ 40) (hmem : mem.bound = none ∨ mem.bound = some dir) :
    (refinedDirections b M dl it dirs left tol eps maxit junk mem dir r).2 = true ∧
    asIt ((refinedDirections b M dl it dirs left tol eps maxit junk mem dir r).1.obj dir) = d ∧
    FullNewton b M dl it r d := by
  obtain ⟨p, hpdef⟩ : ∃ p, p = irPar b M dl it dirs left tol eps maxit := ⟨_, rfl⟩
  obtain ⟨pA, pre, pn, pd, pt, pm⟩ := irPar_spec b M dl it dirs left tol eps maxit
  rw [← hpdef] at pA pre pn pd pt pm
  have hpre : precond p (flat (ofResid r)) = flat (ofIterate d) := by
    rw [← precOpr_flat dirs left hd, pre]
  have hinv : p.A (precond p (flat (ofResid r))) = flat (ofResid r) := by
    have := C78_inverse b M dl it dirs left hp hex r hr d hd
    rw [precOpr_flat dirs left hd] at this
    rw [pA, hpre, this]
  have hb : flat (ofResid r) ≠ 0 := by
    intro h
    apply h0
    rw [← dot_resid, h]; simp [dot_eq_sum]
  obtain ⟨_, e2⟩ := bicg_exact p junk (flat (ofResid r)) pn pd
    (by rw [pA]; exact lin_zero (kktOpr_lin b M dl it)) hinv hb (by rw [dot_resid]; exact hbig)
    (by rw [pt]; exact ht) (by rw [pt]; exact ht1) (by rw [pm]; exact hm)
  have e := (C42_into_first_partial (bicg p junk fun _ => 0) mem dir (flat (ofResid r)) hmem).1
  have hne : maxit ≠ 0 := by omega
  simp only [refinedDirections, directionsIR, if_neg hne, true_and]
  refine ⟨?_, hex r d hd⟩
  rw [← hpdef, e, e2, hpre, asIt_flat]

/-! ## Subspaces kept by the method -/

section Sub
variable {K : Type*} [Field K] [LinearOrder K] [IsStrictOrderedRing K] {N : ℕ}

/-- Closed under `x + a*y`, and containing zero. -/
def Lin (S : RVec K N → Prop) : Prop :=
  S 0 ∧ ∀ x y (a : K), S x → S y → S (fun i => x i + a * y i)

theorem Lin.axpy {S : RVec K N → Prop} (h : Lin S) {x y : RVec K N} (a : K) (hx : S x) (hy : S y) :
    S (Vec.axpy x a y) := h.2 x y a hx hy

theorem Lin.scale {S : RVec K N → Prop} (h : Lin S) {x : RVec K N} (a : K) (hx : S x) :
    S (Vec.scale x a) := by
  have := h.2 0 x a h.1 hx
  have e : (fun i => (0 : RVec K N) i + a * x i) = Vec.scale x a := by
    funext i
    simp only [Pi.zero_apply, zero_add, Vec.scale]
    split_ifs with h1
    · rw [← h1, one_mul]
    · rfl
  rwa [e] at this

/-- What the loop keeps: solutions in `S`, right-hand sides in `T`. -/
structure Kept (S T : RVec K N → Prop) (ii : ℕ) (s : St K N) : Prop where
  b : T s.b
  xk : S s.xk
  xmin : S s.xmin
  res : T s.res
  dir : ii ≠ 0 → T s.pk ∧ T s.v

/-- What is left when the loop ends. -/
def Left (S : RVec K N → Prop) (s : St K N) : Prop := S s.xk ∧ S s.xmin

variable {S T : RVec K N → Prop} {p : Par K N}

theorem residual_kept (hT : Lin T) (hA : ∀ x, S x → T (p.A x)) {b x : RVec K N} (hb : T b)
    (hx : S x) : T (Krylov.residual p b x) := by
  unfold Krylov.residual
  exact hT.scale _ (hT.axpy _ (hA x hx) hb)

theorem check_kept (hT : Lin T) (hA : ∀ x, S x → T (p.A x)) (tolb it : K) (s : St K N)
    (r : RVec K N) (hb : T s.b) (hx : S s.xk) (hm : S s.xmin) (hr : T r) :
    let c := check false p tolb it s r
    S c.1.xk ∧ S c.1.xmin ∧ T c.2.1 ∧ c.1.pk = s.pk ∧ c.1.v = s.v ∧ (c.2.2 = false → T c.1.b) := by
  have hr' := residual_kept hT hA hb hx
  simp only [check]
  split_ifs <;> simp_all

theorem minUpd_kept (s : St K N) (it : K) (hx : S s.xk) (hm : S s.xmin) :
    S (minUpd s it).xk ∧ S (minUpd s it).xmin ∧ (minUpd s it).pk = s.pk ∧ (minUpd s it).v = s.v ∧
      (minUpd s it).b = s.b ∧ (minUpd s it).res = s.res := by
  unfold minUpd
  split_ifs <;> simp_all

theorem bicgTail_kept (hS : Lin S) (hT : Lin T) (hA : ∀ x, S x → T (p.A x)) (tolb : K) (ii : ℕ)
    (s : St K N) (omega : K) (ph sk : RVec K N) (hb : T s.b) (hx : S s.xk) (hm : S s.xmin)
    (hp : T s.pk) (hv : T s.v) (hph : S ph) (hsk : T sk) :
    let e := bicgTail p tolb ii s omega ph sk (p.A ph)
    (e.2 = true → Left S e.1) ∧ (e.2 = false → Kept S T (ii + 1) e.1) := by
  obtain ⟨c1, c2, c3, c4, c5, c6⟩ := check_kept hT hA tolb (ii + 1)
    { s with stag := stagUpd p s ph omega, xk := axpy s.xk omega ph } (axpy sk (-omega) (p.A ph))
    hb (hS.axpy _ hx hph) hm (hT.axpy _ hsk (hA _ hph))
  simp only [bicgTail]
  generalize check false p tolb _ _ _ = c at *
  split
  · exact ⟨fun _ => ⟨c1, c2⟩, by simp⟩
  · next ho =>
    obtain ⟨m1, m2, m3, m4, m5, m6⟩ := minUpd_kept (S := S) { c.1 with res := c.2.1 } (ii + 1) c1 c2
    split
    · exact ⟨fun _ => ⟨m1, m2⟩, by simp⟩
    · refine ⟨by simp, fun _ => ⟨?_, m1, m2, ?_, fun _ => ⟨?_, ?_⟩⟩⟩
      · rw [m5]; exact c6 (by simpa using ho)
      · rw [m6]; exact c3
      · rw [m3]; simp only [c4]; exact hp
      · rw [m4]; simp only [c5]; exact hv

theorem bicgStep_kept (hS : Lin S) (hT : Lin T) (hA : ∀ x, S x → T (p.A x))
    (hM : ∀ r, T r → S (precond p r)) (rt : RVec K N) (tolb : K) (ii : ℕ) (s : St K N)
    (h : Kept S T ii s) :
    let e := bicgStep p rt tolb ii s
    (e.2 = true → Left S e.1) ∧ (e.2 = false → Kept S T (ii + 1) e.1) := by
  simp only [bicgStep]
  split
  · exact ⟨fun _ => ⟨h.xk, h.xmin⟩, by simp [breakdown]⟩
  simp only [bicgDirection]
  split
  · exact ⟨fun _ => ⟨h.xk, h.xmin⟩, by simp [breakdown]⟩
  obtain ⟨pk, hpk⟩ : ∃ pk, pk = (if ii = 0 then s.res else
      axpy (scale (axpy s.pk (-s.omega) s.v) (p.dot rt s.res / s.rho * (s.alpha / s.omega))) 1 s.res) :=
    ⟨_, rfl⟩
  rw [← hpk]
  have hpkT : T pk := by
    rw [hpk]
    split
    · exact h.res
    · next h0 =>
      exact hT.axpy _ (hT.scale _ (hT.axpy _ (h.dir h0).1 (h.dir h0).2)) h.res
  split
  · exact ⟨fun _ => ⟨h.xk, h.xmin⟩, by simp [breakdown]⟩
  split
  · exact ⟨fun _ => ⟨h.xk, h.xmin⟩, by simp [breakdown]⟩
  generalize p.dot rt s.res / p.dot rt (p.A (precond p pk)) = alpha
  simp only [bicgFirst]
  have hph := hM pk hpkT
  obtain ⟨c1, c2, c3, c4, c5, c6⟩ := check_kept hT hA tolb ((ii : K) + 1 - 1 / 2)
    { s with
      rho := p.dot rt s.res
      pk := pk
      v := p.A (precond p pk)
      alpha := alpha
      stag := stagUpd p
        { s with
          rho := p.dot rt s.res
          pk := pk
          v := p.A (precond p pk)
          alpha := alpha } (precond p pk) alpha
      xk := axpy s.xk alpha (precond p pk) }
    (axpy s.res (-alpha) (p.A (precond p pk)))
    h.b (hS.axpy _ h.xk hph) h.xmin (hT.axpy _ h.res (hA _ hph))
  generalize check false p tolb _ _ _ = c at *
  split
  · exact ⟨fun _ => ⟨c1, c2⟩, by simp⟩
  next ho =>
  split
  · exact ⟨fun _ => ⟨c1, c2⟩, by simp⟩
  obtain ⟨m1, m2, m3, m4, m5, m6⟩ := minUpd_kept (S := S) c.1 ((ii : K) + 1 - 1 / 2) c1 c2
  simp only [bicgSecond]
  split
  · exact ⟨fun _ => ⟨m1, m2⟩, by simp [breakdown]⟩
  split
  · exact ⟨fun _ => ⟨m1, m2⟩, by simp [breakdown]⟩
  refine bicgTail_kept hS hT hA tolb ii _ _ _ _ ?_ m1 m2 ?_ ?_ (hM _ c3) c3
  · simp only [m5]; exact c6 (by simpa using ho)
  · simp only [m3, c4]; exact hpkT
  · simp only [m4, c5]; exact hA _ hph

theorem bicg_kept (hS : Lin S) (hT : Lin T) (hA : ∀ x, S x → T (p.A x))
    (hM : ∀ r, T r → S (precond p r)) (junk : St K N) (b : RVec K N) (hb : T b)
    (h0 : p.nrm b = 0 → b = 0) : S (bicg p junk (fun _ => 0) b).x := by
  have hl : ∀ rt tolb fuel ii s, Kept S T ii s →
      Left S (loop (bicgStep p rt tolb) fuel ii s).1 := by
    intro rt tolb fuel
    induction fuel with
    | zero => intro ii s h; exact ⟨h.xk, h.xmin⟩
    | succ k ih =>
      intro ii s h
      have hs := bicgStep_kept hS hT hA hM rt tolb ii s h
      simp only [loop]
      by_cases ho : (bicgStep p rt tolb ii s).2 = true
      · rw [if_pos ho]; exact hs.1 ho
      · rw [if_neg ho]; exact ih _ _ (hs.2 (by simpa using ho))
  unfold bicg
  split
  · next h => simp only [h0 h]; exact hS.1
  simp only
  split
  · exact hS.1
  · have hk : Kept S T 0 (Krylov.start p junk b (fun _ => 0)) :=
      ⟨hb, hS.1, hS.1, residual_kept hT hA hb hS.1, fun h => absurd rfl h⟩
    obtain ⟨l1, l2⟩ := hl (Krylov.start p junk b (fun _ => 0)).res (p.tol * p.nrm b) p.maxit 0 _ hk
    simp only [finish]
    split_ifs <;> assumption

end Sub

/-! ## C78, any inner solve -/

theorem fullSpace_off {K : Type*} [Field K] [LinearOrder K] [IsStrictOrderedRing K]
    (b : Bounds K n m) (c : Counts) (it : It K n mc m) (r : Resid K n mc m) (d : It K n mc m) :
    DirOff b (fullSpace b c it r d) := by
  constructor <;> refine ⟨?_, ?_, ?_, ?_⟩ <;> intro i hi <;> simp only [fullSpace] <;>
    split_ifs <;> simp [Vec.selectPattern, componentDivSel, zeroVec, hi]

/-- **C78.** Every answer of the direct computation, in any of its variants, has zero components for
missing bounds, whatever the inner solver does. -/
theorem C78_direct_off (b : Bounds ℝ n m) (c : Counts) (it : It ℝ n mc m) (ddInv : RVec ℝ m)
    (s3 : Solve3 ℝ n mc m) (s4 : Solve4 ℝ n mc m) (r : Resid ℝ n mc m) (dir d : It ℝ n mc m) :
    (xycydDirections b c it ddInv s3 r dir = some d → DirOff b d) ∧
    (xdycydDirections b c it s4 r dir = some d → DirOff b d) := by
  constructor
  · intro h
    simp only [xycydDirections] at h
    generalize s3 _ _ _ = a at h
    match a, h with
    | some (x, y, z), h =>
      simp only [Option.some.injEq] at h
      rw [← h]; exact fullSpace_off _ _ _ _ _
  · intro h
    simp only [xdycydDirections] at h
    generalize s4 _ _ _ _ = a at h
    match a, h with
    | some (x, y, z, w), h =>
      simp only [Option.some.injEq] at h
      rw [← h]; exact fullSpace_off _ _ _ _ _

theorem lin_dirOff (b : Bounds ℝ n m) :
    Lin fun v : RVec ℝ (Dim n mc m) => DirOff b (asIt v) := by
  refine ⟨⟨⟨?_, ?_, ?_, ?_⟩, ?_, ?_, ?_, ?_⟩, ?_⟩
  iterate 8 exact fun _ _ => rfl
  rintro x y a ⟨⟨x1, x2, x3, x4⟩, x5, x6, x7, x8⟩ ⟨⟨y1, y2, y3, y4⟩, y5, y6, y7, y8⟩
  have key : ∀ {q : ℕ} (w u v : RVec ℝ q), ZeroOff u w → ZeroOff v w →
      ZeroOff (fun i => u i + a * v i) w := by
    intro q w u v hu hv i hi
    simp only [hu i hi, hv i hi, mul_zero, add_zero]
  exact ⟨⟨key _ _ _ x1 y1, key _ _ _ x2 y2, key _ _ _ x3 y3, key _ _ _ x4 y4⟩, key _ _ _ x5 y5,
    key _ _ _ x6 y6, key _ _ _ x7 y7, key _ _ _ x8 y8⟩

theorem lin_residOff (b : Bounds ℝ n m) :
    Lin fun v : RVec ℝ (Dim n mc m) => ResidOff b (asResid v) := by
  refine ⟨⟨⟨?_, ?_, ?_, ?_⟩, ?_, ?_, ?_, ?_⟩, ?_⟩
  iterate 8 exact fun _ _ => rfl
  rintro x y a ⟨⟨x1, x2, x3, x4⟩, x5, x6, x7, x8⟩ ⟨⟨y1, y2, y3, y4⟩, y5, y6, y7, y8⟩
  have key : ∀ {q : ℕ} (w u v : RVec ℝ q), ZeroOff u w → ZeroOff v w →
      ZeroOff (fun i => u i + a * v i) w := by
    intro q w u v hu hv i hi
    simp only [hu i hi, hv i hi, mul_zero, add_zero]
  exact ⟨⟨key _ _ _ x1 y1, key _ _ _ x2 y2, key _ _ _ x3 y3, key _ _ _ x4 y4⟩, key _ _ _ x5 y5,
    key _ _ _ x6 y6, key _ _ _ x7 y7, key _ _ _ x8 y8⟩

theorem kktOpr_off (b : Bounds ℝ n m) (M : Mats ℝ n mc m) (dl : Deltas ℝ n mc m)
    (it : It ℝ n mc m) (v : RVec ℝ (Dim n mc m)) (h : DirOff b (asIt v)) :
    ResidOff b (asResid (kktOpr b M dl it v)) := by
  rw [kktOpr, asResid_flat, kktTimes_lhs]
  obtain ⟨⟨x1, x2, x3, x4⟩, x5, x6, x7, x8⟩ := h
  refine ⟨⟨?_, ?_, ?_, ?_⟩, ?_, ?_, ?_, ?_⟩ <;> intro i hi <;> simp only [newtonLhs]
  · rw [if_pos hi]
  · rw [if_pos hi]
  · rw [if_pos hi]
  · rw [if_pos hi]
  · rw [x1 i hi, x5 i hi]; simp
  · rw [x2 i hi, x6 i hi]; simp
  · rw [x3 i hi, x7 i hi]; simp
  · rw [x4 i hi, x8 i hi]; simp

/-- **C78, missing bounds.** Whatever the inner solver does (exact or not, failing or not), as long as
what it writes has zero components for missing bounds, the refined direction has: no slack or
multiplier of a bound that does not exist gets a direction, after any number of iterations and
however the method ends. -/
theorem C78_off_bounds (b : Bounds ℝ n m) (M : Mats ℝ n mc m) (dl : Deltas ℝ n mc m)
    (it : It ℝ n mc m) (dirs : Resid ℝ n mc m → Option (It ℝ n mc m))
    (left : Resid ℝ n mc m → It ℝ n mc m) (tol eps : ℝ) (maxit : ℕ) (junk : St ℝ (Dim n mc m))
    (mem : Mem ℝ (Dim n mc m)) (dir : ℕ) (r : Resid ℝ n mc m)
    (hdirs : ∀ r d, dirs r = some d → DirOff b d) (hleft : ∀ r, DirOff b (left r))
    (hr : ResidOff b r) (hm : 0 < maxit) (hmem : mem.bound = none ∨ mem.bound = some dir) :
    DirOff b (asIt ((refinedDirections b M dl it dirs left tol eps maxit junk mem dir r).1.obj dir)) := by
  obtain ⟨pA, pre, pn, pd, pt, pm⟩ := irPar_spec b M dl it dirs left tol eps maxit
  have hne : maxit ≠ 0 := by omega
  simp only [refinedDirections, directionsIR, if_neg hne]
  rw [(C42_into_first_partial _ mem dir (flat (ofResid r)) hmem).1]
  refine bicg_kept (lin_dirOff b) (lin_residOff b) ?_ ?_ junk _ (by rw [asResid_flat]; exact hr) ?_
  · intro x hx
    rw [pA]; exact kktOpr_off b M dl it x hx
  · intro v _
    rw [pre, precOpr, asIt_flat]
    cases h : dirs (asResid v) with
    | none => exact hleft _
    | some d => exact hdirs _ _ h
  · rw [pn]; exact twonorm_eq_zero _

/-- **C78, converged.** Whatever the inner solver does: if the iterative method stops with success, the
defects of the twelve blocks of Newton equations at the direction the caller receives are together at
most `tol` times the right-hand side (Euclidean lengths). -/
theorem C78_converged (b : Bounds ℝ n m) (M : Mats ℝ n mc m) (dl : Deltas ℝ n mc m)
    (it : It ℝ n mc m) (dirs : Resid ℝ n mc m → Option (It ℝ n mc m))
    (left : Resid ℝ n mc m → It ℝ n mc m) (tol eps : ℝ) (maxit : ℕ) (junk : St ℝ (Dim n mc m))
    (mem : Mem ℝ (Dim n mc m)) (dir : ℕ) (r : Resid ℝ n mc m) (ht : 0 ≤ tol)
    (hm : 0 < maxit) (hmem : mem.bound = none ∨ mem.bound = some dir)
    (hok : (bicg (irPar b M dl it dirs left tol eps maxit) junk (fun _ => 0)
      (flat (ofResid r))).ok = true) :
    sq12 r (newtonLhs b M dl it
      (asIt ((refinedDirections b M dl it dirs left tol eps maxit junk mem dir r).1.obj dir)))
      ≤ tol ^ 2 * normSq r := by
  obtain ⟨pA, pre, pn, pd, pt, pm⟩ := irPar_spec b M dl it dirs left tol eps maxit
  have hne : maxit ≠ 0 := by omega
  simp only [refinedDirections, directionsIR, if_neg hne]
  rw [(C42_into_first_partial _ mem dir (flat (ofResid r)) hmem).1]
  have hs := (C42_bicg_sound _ junk (fun _ => 0) (flat (ofResid r))
    (by rw [pn]; exact twonorm_eq_zero _) (by rw [pA]; exact lin_zero (kktOpr_lin b M dl it))
    (by rw [pn]; exact twonorm_zero) hok).1
  rw [pn, pt, pA] at hs
  rw [← kktTimes_lhs, ← defect_sq (kktOpr b M dl it) r _ _ rfl, ← dot_resid, ← sq_twonorm, ← mul_pow]
  exact pow_le_pow_left₀ (twonorm_nonneg _) hs 2

/-- **C78, accuracy.** With the tolerance the solver asks for, the defects of a converged direction are within
`ir_outer_tol_min` and within `ir_outer_tol_factor` times the barrier parameter of the right-hand side; the
tolerance is one of these two numbers. -/
theorem C78_accuracy (b : Bounds ℝ n m) (M : Mats ℝ n mc m) (dl : Deltas ℝ n mc m)
    (it : It ℝ n mc m) (dirs : Resid ℝ n mc m → Option (It ℝ n mc m))
    (left : Resid ℝ n mc m → It ℝ n mc m) (mu factor tolMin eps : ℝ) (maxit : ℕ) (junk : St ℝ (Dim n mc m))
    (mem : Mem ℝ (Dim n mc m)) (dir : ℕ) (r : Resid ℝ n mc m) (hmu : 0 ≤ mu) (hf : 0 ≤ factor) (ht : 0 ≤ tolMin)
    (hm : 0 < maxit) (hmem : mem.bound = none ∨ mem.bound = some dir)
    (hok : (bicg (irPar b M dl it dirs left (outerTol mu factor tolMin) eps maxit) junk (fun _ => 0)
      (flat (ofResid r))).ok = true) :
    sq12 r (newtonLhs b M dl it (asIt ((refinedDirections b M dl it dirs left (outerTol mu factor tolMin) eps maxit junk
      mem dir r).1.obj dir))) ≤ (mu * factor) ^ 2 * normSq r ∧
    sq12 r (newtonLhs b M dl it (asIt ((refinedDirections b M dl it dirs left (outerTol mu factor tolMin) eps maxit junk
      mem dir r).1.obj dir))) ≤ tolMin ^ 2 * normSq r ∧
    (outerTol mu factor tolMin = mu * factor ∨ outerTol mu factor tolMin = tolMin) := by
  have h0 : 0 ≤ outerTol mu factor tolMin := le_min (mul_nonneg hmu hf) ht
  have h := C78_converged b M dl it dirs left (outerTol mu factor tolMin) eps maxit junk mem dir r h0 hm hmem hok
  have hn : 0 ≤ normSq r := by
    rw [← dot_resid, ← sq_twonorm]
    positivity
  refine ⟨h.trans (mul_le_mul_of_nonneg_right (pow_le_pow_left₀ h0 (min_le_left _ _) 2) hn),
    h.trans (mul_le_mul_of_nonneg_right (pow_le_pow_left₀ h0 (min_le_right _ _) 2) hn), min_choice _ _⟩

/-- **C78, however it ends (partial).** For an iteration limit below 50 (the default is 8) and
whatever the inner solver does, the defects at the direction the caller receives are together at most
the right-hand side: the direction is never worse than no direction. Missing: limits from 50 to 100
(`C42_bicg_giveup_overwrites`). -/
theorem C78_no_worse_partial (b : Bounds ℝ n m) (M : Mats ℝ n mc m) (dl : Deltas ℝ n mc m)
    (it : It ℝ n mc m) (dirs : Resid ℝ n mc m → Option (It ℝ n mc m))
    (left : Resid ℝ n mc m → It ℝ n mc m) (tol eps : ℝ) (maxit : ℕ) (junk : St ℝ (Dim n mc m))
    (mem : Mem ℝ (Dim n mc m)) (dir : ℕ) (r : Resid ℝ n mc m)
    (hm : 0 < maxit) (hm50 : maxit < 50) (hmem : mem.bound = none ∨ mem.bound = some dir) :
    sq12 r (newtonLhs b M dl it
      (asIt ((refinedDirections b M dl it dirs left tol eps maxit junk mem dir r).1.obj dir)))
      ≤ normSq r := by
  obtain ⟨pA, pre, pn, pd, pt, pm⟩ := irPar_spec b M dl it dirs left tol eps maxit
  have hne : maxit ≠ 0 := by omega
  have hl : LinOp (irPar b M dl it dirs left tol eps maxit).A := by
    rw [pA]; exact kktOpr_lin b M dl it
  have hz : defect (kktOpr b M dl it) (flat (ofResid r)) (fun _ => 0) = flat (ofResid r) := by
    funext i
    have := congrFun (lin_zero (kktOpr_lin b M dl it)) i
    simp only [defect]
    rw [show (fun _ => 0 : RVec ℝ (Dim n mc m)) = 0 from rfl, this]; simp
  simp only [refinedDirections, directionsIR, if_neg hne]
  rw [(C42_into_first_partial _ mem dir (flat (ofResid r)) hmem).1]
  rw [← kktTimes_lhs, ← defect_sq (kktOpr b M dl it) r _ _ rfl, ← dot_resid, ← sq_twonorm]
  refine pow_le_pow_left₀ (twonorm_nonneg _) ?_ 2
  by_cases hb : QN.twonorm (flat (ofResid r)) = 0
  · have e := twonorm_eq_zero _ hb
    have hx : (bicg (irPar b M dl it dirs left tol eps maxit) junk (fun _ => 0)
        (flat (ofResid r))).x = flat (ofResid r) := by
      unfold bicg
      rw [pn, if_pos hb]
    rw [hx]
    have hz2 := hz
    rw [show (fun _ => 0 : RVec ℝ (Dim n mc m)) = flat (ofResid r) from e.symm] at hz2
    rw [hz2]
  · have h := (C42_bicg_monotone_partial _ junk (fun _ => 0) (flat (ofResid r)) hl
      (by rw [pn]; exact hb) (by rw [pm]; exact hm50)).1
    rw [pn, pA, hz] at h
    exact h

/-! ## C78, the direct computations -/

/-- **C78.** The direct computation of the (x, yc, yd) formulation is exact under the hypotheses of
C18. -/
theorem C78_exact_xycyd (b : Bounds ℝ n m) (c : Counts) (M : Mats ℝ n mc m) (dl : Deltas ℝ n mc m)
    (it dir : It ℝ n mc m) (ddInv : RVec ℝ m) (s : Solve3 ℝ n mc m)
    (hp : Patterns b) (hc : CountsOk c b) (hs : SlacksOk b it) (hz : DualsOk b it)
    (hi : IneqOk b dl) (hinv : ∀ i, ddInv i = 1 / (sigD b it i + dl.wd i))
    (hsolve : Solves3 M (fun i => sigX b it i + dl.wx i) dl.cc
      (fun i => 1 / (sigD b it i + dl.wd i) + dl.cd i) s) :
    Exact b M dl it fun r => xycydDirections b c it ddInv s r dir :=
  fun r d h => C18_xycyd b c M dl it r dir d ddInv s hp hc hs hz hi hinv hsolve h

/-- **C78.** So is that of the (x, d, yc, yd) formulation under the hypotheses of C19. -/
theorem C78_exact_xdycyd (b : Bounds ℝ n m) (c : Counts) (M : Mats ℝ n mc m) (dl : Deltas ℝ n mc m)
    (it dir : It ℝ n mc m) (s : Solve4 ℝ n mc m) (hp : Patterns b) (hc : CountsOk c b)
    (hs : SlacksOk b it)
    (hsolve : Solves4 M (fun i => sigX b it i + dl.wx i) (fun i => sigD b it i + dl.wd i)
      dl.cc dl.cd s) :
    Exact b M dl it fun r => xdycydDirections b c it s r dir :=
  fun r d h => C19_xdycyd b c M dl it r dir d s hp hc hs hsolve h

/-- **C78, zero right-hand side.** The direction is zero (and zero solves the equations). -/
theorem C78_zero_rhs (b : Bounds ℝ n m) (M : Mats ℝ n mc m) (dl : Deltas ℝ n mc m)
    (it : It ℝ n mc m) (dirs : Resid ℝ n mc m → Option (It ℝ n mc m))
    (left : Resid ℝ n mc m → It ℝ n mc m) (tol eps : ℝ) (maxit : ℕ) (junk : St ℝ (Dim n mc m))
    (mem : Mem ℝ (Dim n mc m)) (dir : ℕ) (r : Resid ℝ n mc m) (hp : Patterns b)
    (hm : 0 < maxit) (h0 : normSq r = 0) (hmem : mem.bound = none ∨ mem.bound = some dir) :
    (refinedDirections b M dl it dirs left tol eps maxit junk mem dir r).1.obj dir = 0 ∧
    FullNewton b M dl it r (asIt 0) := by
  obtain ⟨pA, pre, pn, pd, pt, pm⟩ := irPar_spec b M dl it dirs left tol eps maxit
  have hne : maxit ≠ 0 := by omega
  have hb : QN.twonorm (flat (ofResid r)) = 0 := by
    rw [QN.twonorm, dot_resid, h0, Real.sqrt_zero]
  have e := twonorm_eq_zero _ hb
  constructor
  · simp only [refinedDirections, directionsIR, if_neg hne]
    rw [(C42_into_first_partial _ mem dir (flat (ofResid r)) hmem).1]
    have hx : (bicg (irPar b M dl it dirs left tol eps maxit) junk (fun _ => 0)
        (flat (ofResid r))).x = flat (ofResid r) := by
      unfold bicg
      rw [pn, if_pos hb]
    rw [hx, e]
  · have hr : r = asResid 0 := by rw [← e, asResid_flat]
    have hk : kktTimes b M dl it (asIt 0) = asResid 0 := by
      have := congrArg asResid (lin_zero (kktOpr_lin b M dl it))
      rwa [kktOpr, asResid_flat] at this
    have h1 := (lin_dirOff (mc := mc) b).1
    have h2 := (lin_residOff (mc := mc) b).1
    rw [hr]
    exact (C40_full_operator b M dl it (asIt 0) (asResid 0) hp ⟨h2.slack, h2.comp⟩
      ⟨h1.slack, h1.comp⟩).1 hk

/-- **C78, exact inner solve, any right-hand side up to length `10^20`.** The direction received
solves the Newton equations. -/
theorem C78_solves_partial (b : Bounds ℝ n m) (M : Mats ℝ n mc m) (dl : Deltas ℝ n mc m)
    (it : It ℝ n mc m) (dirs : Resid ℝ n mc m → Option (It ℝ n mc m))
    (left : Resid ℝ n mc m → It ℝ n mc m) (tol eps : ℝ) (maxit : ℕ) (junk : St ℝ (Dim n mc m))
    (mem : Mem ℝ (Dim n mc m)) (dir : ℕ) (r : Resid ℝ n mc m)
    (hp : Patterns b) (hex : Exact b M dl it dirs) (hr : ResidOff b r) (hd : dirs r ≠ none)
    (hm : 0 < maxit) (ht : 0 ≤ tol) (ht1 : tol < 1)
    (hbig : normSq r ≤ 10 ^ 40) (hmem : mem.bound = none ∨ mem.bound = some dir) :
    FullNewton b M dl it r
      (asIt ((refinedDirections b M dl it dirs left tol eps maxit junk mem dir r).1.obj dir)) := by
  obtain ⟨d, hd⟩ := Option.ne_none_iff_exists'.1 hd
  by_cases h0 : normSq r = 0
  · obtain ⟨e1, e2⟩ := C78_zero_rhs b M dl it dirs left tol eps maxit junk mem dir r hp hm h0 hmem
    rw [e1]; exact e2
  · obtain ⟨_, e2, e3⟩ := C78_same_direction_partial b M dl it dirs left tol eps maxit junk mem dir r
      d hp hex hr hd hm ht ht1 h0 hbig hmem
    rw [e2]; exact e3

/-! ## C78, deviations -/

/-- The method gives up in its first pass: the starting point is returned. -/
theorem bicg_breakdown {N : ℕ} (p : Par ℝ N) (junk : St ℝ N) (b : RVec ℝ N)
    (hn : p.nrm = QN.twonorm) (hd : p.dot = Vec.dot) (hA : p.A 0 = 0) (hb : b ≠ 0)
    (ht1 : p.tol < 1)
    (hbr : 10 ^ 40 < Vec.dot b b ∨ precond p b = 0) (hm : 0 < p.maxit) :
    (bicg p junk (fun _ => 0) b).ok = false ∧ (bicg p junk (fun _ => 0) b).x = 0 := by
  have hz : (fun _ => 0 : RVec ℝ N) = 0 := rfl
  have hnb : QN.twonorm b ≠ 0 := fun h => hb (twonorm_eq_zero b h)
  have hpos : 0 < QN.twonorm b := lt_of_le_of_ne (twonorm_nonneg b) (Ne.symm hnb)
  have hres : Krylov.residual p b 0 = b := by
    rw [residual_eq]; funext i; simp [defect, hA]
  have hlt : ¬ QN.twonorm b ≤ p.tol * QN.twonorm b := by
    push Not
    calc p.tol * QN.twonorm b < 1 * QN.twonorm b := mul_lt_mul_of_pos_right ht1 hpos
      _ = _ := one_mul _
  obtain ⟨k, hk⟩ : ∃ k, p.maxit = k + 1 := ⟨p.maxit - 1, by omega⟩
  have hstep : ∀ s : St ℝ N, s.b = b → s.xk = 0 → s.xmin = 0 → s.res = b →
      s.absr = QN.twonorm b →
      ∃ s', bicgStep p b (p.tol * QN.twonorm b) 0 s = (s', true) ∧ s'.flag = 4 ∧
        s'.xmin = 0 ∧ s'.b = b ∧ s'.absr = QN.twonorm b := by
    intro s h1 h2 h3 h4 h5
    by_cases hbig : 10 ^ 40 < Vec.dot b b
    · have : |Vec.dot b b| > 10 ^ 40 := by rw [abs_of_nonneg (dot_self_nonneg b)]; exact hbig
      simp only [bicgStep, hd, h4, this, or_true, if_true, breakdown]
      exact ⟨_, rfl, rfl, h3, h1, h5⟩
    · have hpre : precond p b = 0 := hbr.resolve_left hbig
      have hdd : Vec.dot b b ≠ 0 := fun h => hb (dot_self_eq_zero b h)
      have hab : ¬ |Vec.dot b b| > 10 ^ 40 := by
        rw [abs_of_nonneg (dot_self_nonneg b)]; exact hbig
      have h0 : Vec.dot b 0 = 0 := by simp [dot_eq_sum]
      simp only [bicgStep, hd, h4, hdd, hab, or_self, if_false, bicgDirection, ne_eq,
        not_true_eq_false, false_and, if_true, hpre, hA, h0, true_or, breakdown]
      exact ⟨_, rfl, rfl, h3, h1, h5⟩
  obtain ⟨s', a1, a2, a3, a4, a5⟩ := hstep (Krylov.start p junk b 0) rfl rfl rfl hres
    (by simp only [Krylov.start, hres, hn])
  have hres' : (Krylov.start p junk b 0).res = b := hres
  unfold bicg
  simp only [hn, if_neg hnb, hz, hres', if_neg hlt, hk, loop]
  rw [a1]
  simp only [if_true, finish, a2, a3, a4, a5, hn, hres, le_refl]
  exact ⟨rfl, rfl⟩

/-- **C78, deviation.** A right-hand side longer than `10^20` makes the refinement answer with the
zero direction and success, even if the inner solve is exact. -/
theorem C78_long_rhs_zero_direction (b : Bounds ℝ n m) (M : Mats ℝ n mc m) (dl : Deltas ℝ n mc m)
    (it : It ℝ n mc m) (dirs : Resid ℝ n mc m → Option (It ℝ n mc m))
    (left : Resid ℝ n mc m → It ℝ n mc m) (tol eps : ℝ) (maxit : ℕ) (junk : St ℝ (Dim n mc m))
    (mem : Mem ℝ (Dim n mc m)) (dir : ℕ) (r : Resid ℝ n mc m) (hm : 0 < maxit) (ht1 : tol < 1)
    (hbig : 10 ^ 40 < normSq r) (hmem : mem.bound = none ∨ mem.bound = some dir) :
    (refinedDirections b M dl it dirs left tol eps maxit junk mem dir r).2 = true ∧
    (refinedDirections b M dl it dirs left tol eps maxit junk mem dir r).1.obj dir = 0 := by
  obtain ⟨pA, pre, pn, pd, pt, pm⟩ := irPar_spec b M dl it dirs left tol eps maxit
  have hne : maxit ≠ 0 := by omega
  have hb : flat (ofResid r) ≠ 0 := by
    intro h
    have : normSq r = 0 := by rw [← dot_resid, h]; simp [dot_eq_sum]
    rw [this] at hbig
    norm_num at hbig
  simp only [refinedDirections, directionsIR, if_neg hne, true_and]
  rw [(C42_into_first_partial _ mem dir (flat (ofResid r)) hmem).1]
  exact (bicg_breakdown _ junk _ pn pd (by rw [pA]; exact lin_zero (kktOpr_lin b M dl it)) hb
    (by rw [pt]; exact ht1) (Or.inl (by rw [dot_resid]; exact hbig)) (by rw [pm]; exact hm)).2

/-- **C78, deviation.** If the inner solve always fails, leaving zero vectors, the caller is told
success and receives the zero direction, which does not solve the equations (the right-hand side is
not zero). Without refinement the same failure is reported. -/
theorem C78_failed_solve_refuted (b : Bounds ℝ n m) (M : Mats ℝ n mc m) (dl : Deltas ℝ n mc m)
    (it : It ℝ n mc m) (tol eps : ℝ) (maxit : ℕ) (junk : St ℝ (Dim n mc m))
    (mem : Mem ℝ (Dim n mc m)) (dir : ℕ) (r : Resid ℝ n mc m) (hm : 0 < maxit) (ht1 : tol < 1)
    (h0 : normSq r ≠ 0) (hp : Patterns b) (hr : ResidOff b r)
    (hmem : mem.bound = none ∨ mem.bound = some dir) :
    let fail := fun _ : Resid ℝ n mc m => (none : Option (It ℝ n mc m))
    let zero := fun _ : Resid ℝ n mc m => (asIt 0 : It ℝ n mc m)
    (refinedDirections b M dl it fail zero tol eps maxit junk mem dir r).2 = true ∧
    (refinedDirections b M dl it fail zero tol eps maxit junk mem dir r).1.obj dir = 0 ∧
    ¬ FullNewton b M dl it r (asIt 0) ∧
    (refinedDirections b M dl it fail zero tol eps 0 junk mem dir r).2 = false := by
  intro fail zero
  obtain ⟨pA, pre, pn, pd, pt, pm⟩ := irPar_spec b M dl it fail zero tol eps maxit
  have hne : maxit ≠ 0 := by omega
  have hb : flat (ofResid r) ≠ 0 := by
    intro h
    exact h0 (by rw [← dot_resid, h]; simp [dot_eq_sum])
  refine ⟨by simp only [refinedDirections, directionsIR, if_neg hne], ?_, ?_, ?_⟩
  · simp only [refinedDirections, directionsIR, if_neg hne]
    rw [(C42_into_first_partial _ mem dir (flat (ofResid r)) hmem).1]
    refine (bicg_breakdown _ junk _ pn pd (by rw [pA]; exact lin_zero (kktOpr_lin b M dl it)) hb
      (by rw [pt]; exact ht1) (Or.inr ?_) (by rw [pm]; exact hm)).2
    rw [pre]
    simp only [precOpr, fail, zero, Option.getD_none]
    exact flat_asIt 0
  · intro h
    have h1 := (lin_dirOff (mc := mc) b).1
    have hk := (C40_full_operator b M dl it (asIt 0) r hp ⟨hr.slack, hr.comp⟩
      ⟨h1.slack, h1.comp⟩).2 h
    apply hb
    rw [← hk]
    exact lin_zero (kktOpr_lin b M dl it)
  · simp [refinedDirections, directionsIR, fail]

/-! ## A concrete case -/

/-- One variable with a lower bound, no constraints. -/
noncomputable def exB : Bounds ℝ 1 0 :=
  ⟨fun _ => 0, fun _ => 0, fun _ => 1, fun _ => 0, fun i => i.elim0, fun i => i.elim0,
    fun i => i.elim0, fun i => i.elim0⟩

/-- Hessian 2. -/
noncomputable def exM : Mats ℝ 1 0 0 := ⟨fun _ _ => 2, fun i => i.elim0, fun i => i.elim0⟩

/-- No perturbation. -/
noncomputable def exDl : Deltas ℝ 1 0 0 := ⟨fun _ => 0, fun i => i.elim0, fun i => i.elim0, fun i => i.elim0⟩

/-- Slack 1 and multiplier 3 of the lower bound. -/
noncomputable def exIt : It ℝ 1 0 0 :=
  ⟨fun _ => 1, fun i => i.elim0, fun _ => 1, fun _ => 0, fun i => i.elim0, fun i => i.elim0,
    fun i => i.elim0, fun i => i.elim0, fun _ => 3, fun _ => 0, fun i => i.elim0, fun i => i.elim0⟩

/-- A residual with `rx = 15`, `rxl = 1` and `rszl = -2`. -/
noncomputable def exR : Resid ℝ 1 0 0 :=
  ⟨fun _ => 15, fun i => i.elim0, fun i => i.elim0, fun i => i.elim0, fun _ => 1, fun _ => 0,
    fun i => i.elim0, fun i => i.elim0, fun _ => -2, fun _ => 0, fun i => i.elim0, fun i => i.elim0⟩

/-- The exact solver of the reduced system: division by `2 + 3/1`. -/
noncomputable def exSolve : Solve4 ℝ 1 0 0 := fun rx rd ryc ryd => some (fun _ => rx 0 / 5, rd, ryc, ryd)

theorem exPatterns : Patterns exB := by
  constructor <;> intro i <;> first | exact i.elim0 | simp [exB]

theorem exCounts : CountsOk ⟨1, 0, 0, 0⟩ exB := by
  constructor <;> simp [CountOk, exB]

theorem exSlacks : SlacksOk exB exIt := by
  constructor <;> intro i <;> first | exact i.elim0 | simp [exB, exIt]

theorem exExact : Exact exB exM exDl exIt fun r =>
    xdycydDirections exB ⟨1, 0, 0, 0⟩ exIt exSolve r exIt := by
  refine C78_exact_xdycyd _ _ _ _ _ _ _ exPatterns exCounts exSlacks ?_
  intro rx rd ryc ryd dx dd dyc dyd h
  simp only [exSolve, Option.some.injEq, Prod.mk.injEq] at h
  obtain ⟨rfl, rfl, rfl, rfl⟩ := h
  refine ⟨fun i => ?_, fun i => i.elim0, fun i => i.elim0, fun i => i.elim0⟩
  have : i = 0 := Subsingleton.elim _ _
  subst this
  simp [exM, exDl, sigX, exB, exIt]
  ring

theorem exOff : ResidOff exB exR := by
  constructor <;> refine ⟨?_, ?_, ?_, ?_⟩ <;> intro i <;> first | exact i.elim0 | simp [exB, exR]

/-- The hypotheses of the theorems on exact inner solves hold in this case: the refined direction
solves the Newton equations, and its `x` part is `(15 + (-2 - 3*1)/1)/5 = 2`. -/
example (junk : St ℝ (Dim 1 0 0)) (left : Resid ℝ 1 0 0 → It ℝ 1 0 0) :
    let d := asIt ((refinedDirections exB exM exDl exIt (fun r =>
      xdycydDirections exB ⟨1, 0, 0, 0⟩ exIt exSolve r exIt) left (1 / 10 ^ 6) 0 8 junk
      ⟨fun _ => 0, none⟩ 0 exR).1.obj 0)
    FullNewton exB exM exDl exIt exR d ∧ d.x 0 = 2 := by
  intro d
  have hn : normSq exR = 230 := by simp [normSq, exR]; norm_num
  have h := C78_same_direction_partial exB exM exDl exIt _ left (1 / 10 ^ 6) 0 8 junk
    ⟨fun _ => 0, none⟩ 0 exR _ exPatterns exExact exOff rfl (by norm_num) (by norm_num)
    (by norm_num) (by rw [hn]; norm_num) (by rw [hn]; norm_num) (Or.inl rfl)
  refine ⟨by rw [show d = _ from h.2.1]; exact h.2.2, ?_⟩
  rw [show d = _ from h.2.1]
  simp [fullSpace, rxTilde, exR, exIt, exB, axdzpySel, axzpy]
  norm_num

/-- The hypotheses of `C78_failed_solve_refuted` hold in this case too. -/
example (junk : St ℝ (Dim 1 0 0)) :
    (refinedDirections exB exM exDl exIt (fun _ => none) (fun _ => asIt 0) (1 / 10 ^ 6) 0 8 junk
      ⟨fun _ => 0, none⟩ 0 exR).2 = true :=
  (C78_failed_solve_refuted exB exM exDl exIt (1 / 10 ^ 6) 0 8 junk ⟨fun _ => 0, none⟩ 0 exR
    (by norm_num) (by norm_num) (by simp [normSq, exR]; norm_num) exPatterns exOff (Or.inl rfl)).1

end Hiop.Refine
