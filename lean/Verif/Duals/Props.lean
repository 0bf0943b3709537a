import Verif.Duals.Model
import Verif.Resid.Props

/-!
# C35: the multipliers computed by least squares

The specification is the optimization problem documented at hiopDualsUpdater.cpp:197-237, written
out entry by entry.
-/

set_option linter.unusedSectionVars false
set_option linter.unusedSimpArgs false

namespace Hiop.Duals

open Hiop.Vec Hiop.Iterate Hiop.Kkt Hiop.Sparse

variable {K : Type*} [Field K] [LinearOrder K] [IsStrictOrderedRing K] {n mc m ns nd p q s : ℕ}

/-! ## Specification -/

/-- Dual infeasibility in the variables, `grad + Jc' yc + Jd' yd - zl + zu`. -/
def infeasX (grad : RVec K n) (Jc : Matrix (Fin mc) (Fin n) K) (Jd : Matrix (Fin m) (Fin n) K)
    (it : It K n mc m) (yc : RVec K mc) (yd : RVec K m) (i : Fin n) : K :=
  grad i + ∑ k, Jc k i * yc k + ∑ k, Jd k i * yd k - it.zl i + it.zu i

/-- Dual infeasibility in the inequality slacks, `-yd - vl + vu`. -/
def infeasD (it : It K n mc m) (yd : RVec K m) (k : Fin m) : K := - yd k - it.vl k + it.vu k

/-- Squared Euclidean norm of the dual infeasibility. -/
def lsqObj (grad : RVec K n) (Jc : Matrix (Fin mc) (Fin n) K) (Jd : Matrix (Fin m) (Fin n) K)
    (it : It K n mc m) (yc : RVec K mc) (yd : RVec K m) : K :=
  ∑ i, infeasX grad Jc Jd it yc yd i ^ 2 + ∑ k, infeasD it yd k ^ 2

/-- The multipliers minimize the dual infeasibility over all multipliers, the bound multipliers held
fixed. -/
def IsLsq (grad : RVec K n) (Jc : Matrix (Fin mc) (Fin n) K) (Jd : Matrix (Fin m) (Fin n) K)
    (it : It K n mc m) (yc : RVec K mc) (yd : RVec K m) : Prop :=
  ∀ yc' yd', lsqObj grad Jc Jd it yc yd ≤ lsqObj grad Jc Jd it yc' yd'

/-- Nothing but the equality multipliers `yc`, `yd` differs. -/
def OnlyY (it it' : It K n mc m) : Prop := { it' with yc := it.yc, yd := it.yd } = it

theorem OnlyY.obj {it it' : It K n mc m} (h : OnlyY it it') (grad : RVec K n)
    (Jc : Matrix (Fin mc) (Fin n) K) (Jd : Matrix (Fin m) (Fin n) K) (yc : RVec K mc)
    (yd : RVec K m) : lsqObj grad Jc Jd it yc yd = lsqObj grad Jc Jd it' yc yd := by
  unfold OnlyY at h
  rw [← h]
  rfl

/-- Dense factorization oracle that only answers with exact solutions. -/
def LinOk (N : ℕ) (lin : NMat K → Option ((ℕ → K) → Option (ℕ → K))) : Prop :=
  ∀ W sol, lin W = some sol → SymSolves N W sol

/-! ## Normal equations -/

theorem lsq_of_normal (grad : RVec K n) (Jc : Matrix (Fin mc) (Fin n) K)
    (Jd : Matrix (Fin m) (Fin n) K) (it : It K n mc m) (yc : RVec K mc) (yd : RVec K m)
    (h1 : ∀ k, ∑ i, Jc k i * infeasX grad Jc Jd it yc yd i = 0)
    (h2 : ∀ k, ∑ i, Jd k i * infeasX grad Jc Jd it yc yd i = infeasD it yd k) :
    IsLsq grad Jc Jd it yc yd := by
  intro yc' yd'
  set r := infeasX grad Jc Jd it yc yd with hr
  set t := infeasD it yd with ht
  set e : Fin n → K := fun i => ∑ k, Jc k i * (yc' k - yc k) + ∑ k, Jd k i * (yd' k - yd k) with he
  have a1 : ∀ i, infeasX grad Jc Jd it yc' yd' i = r i + e i := by
    intro i
    rw [hr, he]
    simp only [infeasX, mul_sub, Finset.sum_sub_distrib]
    ring
  have a2 : ∀ k, infeasD it yd' k = t k - (yd' k - yd k) := by
    intro k; rw [ht]; unfold infeasD; ring
  have cross : ∑ i, r i * e i = ∑ k, t k * (yd' k - yd k) := by
    have e1 : ∑ i, r i * e i = ∑ i, ∑ k, (Jc k i * r i) * (yc' k - yc k)
        + ∑ i, ∑ k, (Jd k i * r i) * (yd' k - yd k) := by
      rw [← Finset.sum_add_distrib]
      refine Finset.sum_congr rfl fun i _ => ?_
      rw [he]
      simp only [mul_add, Finset.mul_sum]
      congr 1 <;> exact Finset.sum_congr rfl fun k _ => by ring
    have e2 : ∑ i, ∑ k, (Jc k i * r i) * (yc' k - yc k) = 0 := by
      rw [Finset.sum_comm]
      exact Finset.sum_eq_zero fun k _ => by rw [← Finset.sum_mul, h1 k, zero_mul]
    have e3 : ∑ i, ∑ k, (Jd k i * r i) * (yd' k - yd k) = ∑ k, t k * (yd' k - yd k) := by
      rw [Finset.sum_comm]
      exact Finset.sum_congr rfl fun k _ => by rw [← Finset.sum_mul, h2 k]
    rw [e1, e2, e3, zero_add]
  have expand : lsqObj grad Jc Jd it yc' yd' = lsqObj grad Jc Jd it yc yd
      + (∑ i, e i ^ 2 + ∑ k, (yd' k - yd k) ^ 2) := by
    unfold lsqObj
    simp only [a1, a2, ← hr, ← ht]
    have e1 : ∑ i, (r i + e i) ^ 2 = ∑ i, r i ^ 2 + 2 * ∑ i, r i * e i + ∑ i, e i ^ 2 := by
      rw [Finset.mul_sum, ← Finset.sum_add_distrib, ← Finset.sum_add_distrib]
      exact Finset.sum_congr rfl fun i _ => by ring
    have e2 : ∑ k, (t k - (yd' k - yd k)) ^ 2
        = ∑ k, t k ^ 2 - 2 * ∑ k, t k * (yd' k - yd k) + ∑ k, (yd' k - yd k) ^ 2 := by
      rw [Finset.mul_sum, ← Finset.sum_sub_distrib, ← Finset.sum_add_distrib]
      exact Finset.sum_congr rfl fun i _ => by ring
    rw [e1, e2, cross]
    ring
  rw [expand]
  have p1 : 0 ≤ ∑ i, e i ^ 2 := Finset.sum_nonneg fun i _ => sq_nonneg _
  have p2 : 0 ≤ ∑ k, (yd' k - yd k) ^ 2 := Finset.sum_nonneg fun i _ => sq_nonneg _
  linarith

theorem lsqMatrix_blocks (cc cd dd W : NMat K) :
    (∀ i j : Fin mc, lsqMatrix mc m cc cd dd W i j = cc i j) ∧
    (∀ (i : Fin mc) (j : Fin m), lsqMatrix mc m cc cd dd W i (mc + j) = cd i j) ∧
    (∀ i j : Fin m, lsqMatrix mc m cc cd dd W (mc + i) (mc + j)
      = dd i j + if i = j then 1 else 0) := by
  refine ⟨fun i j => ?_, fun i j => ?_, fun i j => ?_⟩
  · unfold lsqMatrix copyBlock
    rw [if_neg (by omega), if_neg (by omega), if_pos (by omega)]
    simp
  · unfold lsqMatrix copyBlock
    rw [if_neg (by omega), if_pos (by omega)]
    simp
  · unfold lsqMatrix copyBlock addDiagonal
    rw [if_pos (by omega), Nat.add_sub_cancel_left, Nat.add_sub_cancel_left]
    by_cases h : i = j
    · subst h
      rw [if_pos (by omega), if_pos rfl]
    · have : i.val ≠ j.val := fun e => h (Fin.ext e)
      rw [if_neg (by omega), if_neg h, add_zero]

theorem sum_two (f : ℕ → K) (a b : ℕ) : ∑ k ∈ Finset.range (a + b), f k
    = ∑ k : Fin a, f k + ∑ k : Fin b, f (a + k) := by
  rw [Finset.sum_range_add, Finset.sum_range, Finset.sum_range]

theorem lsqSolve_spec (lin : NMat K → Option ((ℕ → K) → Option (ℕ → K))) (hl : LinOk (mc + m) lin)
    (cc cd dd W : NMat K) (buf : ℕ → K) (grad : RVec K n) (Jc : Matrix (Fin mc) (Fin n) K)
    (Jd : Matrix (Fin m) (Fin n) K) (it : It K n mc m) (jcx : RVec K mc) (jdx : RVec K m)
    (hcc : ∀ i j : Fin mc, cc i j = ∑ k, Jc i k * Jc j k)
    (hcd : ∀ (i : Fin mc) (j : Fin m), cd i j = ∑ k, Jc i k * Jd j k)
    (hdd : ∀ i j : Fin m, dd i j = ∑ k, Jd i k * Jd j k)
    (hjc : ∀ i, jcx i = - ∑ k, Jc i k * vecx grad it k)
    (hjd : ∀ i, jdx i = - ∑ k, Jd i k * vecx grad it k)
    (ok : Bool) (it' : It K n mc m)
    (h : lsqSolve lin (lsqMatrix mc m cc cd dd W) buf jcx jdx it = (ok, it')) :
    OnlyY it it' ∧ (ok = true → IsLsq grad Jc Jd it it'.yc it'.yd) ∧ (ok = false → it' = it) := by
  obtain ⟨b1, b2, b3⟩ := lsqMatrix_blocks (mc := mc) (m := m) cc cd dd W
  unfold lsqSolve at h
  generalize hq : lin (lsqMatrix mc m cc cd dd W) = a at h
  match a, hq, h with
  | none, hq, h =>
    obtain ⟨rfl, rfl⟩ := Prod.mk.inj h
    exact ⟨rfl, by simp, fun _ => rfl⟩
  | some sol, hq, h =>
    have hs := hl _ _ hq
    simp only at h
    generalize hrhs : copyTo (axpy jdx (-1) (vecd it)) (copyTo jcx buf 0) mc = rhs at h
    generalize hy : sol rhs = y at h
    match y, hy, h with
    | none, hy, h =>
      obtain ⟨rfl, rfl⟩ := Prod.mk.inj h
      exact ⟨rfl, by simp, fun _ => rfl⟩
    | some y, hy, h =>
      obtain ⟨rfl, rfl⟩ := Prod.mk.inj h
      refine ⟨rfl, fun _ => ?_, by simp⟩
      have e := hs rhs y hy
      have r1 : ∀ i : Fin mc, rhs i = jcx i := by
        intro i
        have := copyTo_in jcx buf 0 i
        rw [← hrhs, copyTo_out _ _ _ _ (by omega)]
        simpa using this
      have r2 : ∀ i : Fin m, rhs (mc + i) = jdx i - vecd it i := by
        intro i
        rw [← hrhs, copyTo_in]
        simp [axpy, sub_eq_add_neg]
      have cc' : ∀ i j : Fin mc, lsqMatrix mc m cc cd dd W (min i.val j.val) (max i.val j.val)
          = ∑ k, Jc i k * Jc j k := by
        intro i j
        rcases le_total i.val j.val with hh | hh
        · rw [min_eq_left hh, max_eq_right hh, b1, hcc]
        · rw [min_eq_right hh, max_eq_left hh, b1, hcc]
          exact Finset.sum_congr rfl fun k _ => mul_comm _ _
      have dd' : ∀ i j : Fin m, lsqMatrix mc m cc cd dd W (min (mc + i.val) (mc + j.val))
          (max (mc + i.val) (mc + j.val)) = ∑ k, Jd i k * Jd j k + if i = j then 1 else 0 := by
        intro i j
        rcases le_total i.val j.val with hh | hh
        · rw [min_eq_left (by omega), max_eq_right (by omega), b3, hdd]
        · rw [min_eq_right (by omega), max_eq_left (by omega), b3, hdd]
          simp only [eq_comm (a := i)]
          congr 1
          exact Finset.sum_congr rfl fun k _ => mul_comm _ _
      have cd1 : ∀ (i : Fin mc) (j : Fin m), lsqMatrix mc m cc cd dd W (min i.val (mc + j.val))
          (max i.val (mc + j.val)) = ∑ k, Jc i k * Jd j k := by
        intro i j
        rw [min_eq_left (by omega), max_eq_right (by omega), b2, hcd]
      have cd2 : ∀ (i : Fin m) (j : Fin mc), lsqMatrix mc m cc cd dd W (min (mc + i.val) j.val)
          (max (mc + i.val) j.val) = ∑ k, Jd i k * Jc j k := by
        intro i j
        rw [min_eq_right (by omega), max_eq_left (by omega), b2, hcd]
        exact Finset.sum_congr rfl fun k _ => mul_comm _ _
      have swap : ∀ {a b : ℕ} (u : Fin n → K) (A : Matrix (Fin b) (Fin n) K) (v : Fin b → K),
          ∑ i, u i * ∑ k, A k i * v k = ∑ k, (∑ i, u i * A k i) * v k := by
        intro a b u A v
        simp only [Finset.mul_sum, Finset.sum_mul]
        rw [Finset.sum_comm]
        exact Finset.sum_congr rfl fun _ _ => Finset.sum_congr rfl fun _ _ => by ring
      have key : ∀ u : Fin n → K, ∑ i, u i * infeasX grad Jc Jd it (copyOut y 0 mc) (copyOut y mc m) i
          = ∑ k, u k * vecx grad it k + ∑ k : Fin mc, (∑ i, u i * Jc k i) * y k
            + ∑ k : Fin m, (∑ i, u i * Jd k i) * y (mc + k) := by
        intro u
        have s1 := swap (a := 0) u Jc (copyOut y 0 mc)
        have s2 := swap (a := 0) u Jd (copyOut y mc m)
        simp only [copyOut, Nat.zero_add] at s1 s2
        rw [← s1, ← s2, ← Finset.sum_add_distrib, ← Finset.sum_add_distrib]
        refine Finset.sum_congr rfl fun i _ => ?_
        simp only [infeasX, vecx, axpy, copyOut, Nat.zero_add]
        ring
      refine lsq_of_normal grad Jc Jd it _ _ (fun k => ?_) (fun k => ?_)
      · have := e k (by omega)
        rw [sum_two, r1, hjc] at this
        simp only [cc', cd1] at this
        rw [key]
        linear_combination this
      · have := e (mc + k) (by omega)
        rw [sum_two, r2, hjd] at this
        simp only [cd2, dd', add_mul, Finset.sum_add_distrib, ite_mul, one_mul, zero_mul,
          Finset.sum_ite_eq, Finset.mem_univ, if_true] at this
        rw [key]
        simp only [infeasD, copyOut]
        simp only [vecd, axpy] at this
        linear_combination this

/-- **C35, dense problems.** Whatever earlier calls left in the work space, a successful update gives
the constraint multipliers that minimize the dual infeasibility and changes nothing else; an
unsuccessful one changes nothing. -/
theorem C35_dense (lin : NMat K → Option ((ℕ → K) → Option (ℕ → K))) (hl : LinOk (mc + m) lin)
    (w : Work K mc m) (grad : RVec K n) (Jc : Matrix (Fin mc) (Fin n) K)
    (Jd : Matrix (Fin m) (Fin n) K) (it : It K n mc m) (ok : Bool) (it' : It K n mc m)
    (h : lsqDense lin w grad Jc Jd it = (ok, it')) :
    OnlyY it it' ∧ (ok = true → IsLsq grad Jc Jd it it'.yc it'.yd) ∧ (ok = false → it' = it) := by
  unfold lsqDense lsqDenseMatrix at h
  refine lsqSolve_spec lin hl _ _ _ _ _ grad Jc Jd it _ _ ?_ ?_ ?_ ?_ ?_ ok it' h
  · intro i j; simp [denseMatTrans]
  · intro i j; simp [denseMatTrans]
  · intro i j; simp [denseMatTrans]
  · intro i; simp [Kkt.timesVec, Matrix.mulVec, dotProduct]
  · intro i; simp [Kkt.timesVec, Matrix.mulVec, dotProduct]

/-- The Jacobian in the variables (sparse, dense). -/
def MdsJac.toMat (ns : ℕ) (A : MdsJac K p nd) : Matrix (Fin p) (Fin (ns + nd)) K :=
  fun i => Fin.append (fun k : Fin ns => entry A.sp i k) (A.de i)

theorem mdsMatTrans_spec (W : NMat K) (A : MdsJac K p nd) (B : MdsJac K s nd)
    (sA : Sorted A.sp) (sB : Sorted B.sp) (rA : InRange p ns A.sp) (rB : InRange s ns B.sp) :
    ∃ W', mdsMatTrans 0 W A B = some W' ∧
      ∀ (i : Fin p) (j : Fin s), W' i j = ∑ k, A.toMat ns i k * B.toMat ns j k := by
  obtain ⟨W', h1, h2, -⟩ := C27_timesMatTrans A.sp B.sp 1 1 (denseMatTrans 0 W 1 A.de B.de)
    sA sB rA rB
  refine ⟨W', h1, fun i j => ?_⟩
  rw [h2 i j i.2 j.2, Fin.sum_univ_add]
  simp [denseMatTrans, MdsJac.toMat, add_comm]

theorem mdsTimesVec_spec (A : MdsJac K p nd) (y : RVec K p) (x : RVec K (ns + nd))
    (rA : InRange p ns A.sp) :
    ∃ z, mdsTimesVec A 0 y (-1) x = some z ∧ ∀ i, z i = - ∑ k, A.toMat ns i k * x k := by
  unfold mdsTimesVec
  rw [(C27_timesVec A.sp 0 (-1) y fun i : Fin ns => x (Fin.castAdd nd i)).1 rA]
  refine ⟨_, rfl, fun i => ?_⟩
  rw [Fin.sum_univ_add]
  simp only [Kkt.timesVec, Matrix.mulVec, dotProduct, MdsJac.toMat, Fin.append_left,
    Fin.append_right]
  ring

/-- **C35, mixed dense-sparse problems.** -/
theorem C35_mds (lin : NMat K → Option ((ℕ → K) → Option (ℕ → K))) (hl : LinOk (mc + m) lin)
    (w : Work K mc m) (grad : RVec K (ns + nd)) (Jc : MdsJac K mc nd) (Jd : MdsJac K m nd)
    (sc : Sorted Jc.sp) (sd : Sorted Jd.sp) (rc : InRange mc ns Jc.sp) (rd : InRange m ns Jd.sp)
    (it : It K (ns + nd) mc m) :
    ∃ ok it', lsqMds lin w grad Jc Jd it = some (ok, it') ∧ OnlyY it it' ∧
      (ok = true → IsLsq grad (Jc.toMat ns) (Jd.toMat ns) it it'.yc it'.yd) ∧
      (ok = false → it' = it) := by
  obtain ⟨cc, a1, b1⟩ := mdsMatTrans_spec w.cc Jc Jc sc sc rc rc
  obtain ⟨cd, a2, b2⟩ := mdsMatTrans_spec w.cd Jc Jd sc sd rc rd
  obtain ⟨dd, a3, b3⟩ := mdsMatTrans_spec w.dd Jd Jd sd sd rd rd
  obtain ⟨jc, a4, b4⟩ := mdsTimesVec_spec Jc w.rhsc (vecx grad it) rc
  obtain ⟨jd, a5, b5⟩ := mdsTimesVec_spec Jd w.rhsd (vecx grad it) rd
  generalize hr : lsqSolve lin (lsqMatrix mc m cc cd dd w.M) w.rhs jc jd it = r
  obtain ⟨ok, it'⟩ := r
  refine ⟨ok, it', ?_, lsqSolve_spec lin hl _ _ _ _ _ grad _ _ it _ _ b1 b2 b3 b4 b5 ok it' hr⟩
  unfold lsqMds
  simp only [a1, a2, a3, a4, a5, Option.bind_eq_bind, Option.bind_some, hr]

/-! ## Sparse problems -/

/-- The triplets of the sparse system. -/
def tripLsq (n mc m : ℕ) (Jc Jd : List (Ent K)) : List (Ent K) :=
  diagList 0 0 (n + m) (fun _ => 1) ++ shift (n + m) 0 Jc ++ shift (n + m + mc) 0 Jd
    ++ diagList (n + m + mc) n m (fun _ => -1) ++ diagList 0 0 (n + m + mc + m) (fun _ => 0)

theorem buildLsq_eq (Jc Jd : List (Ent K)) (st : Store K) (sc : RowSorted Jc) (sd : RowSorted Jd)
    (rc : InRange mc n Jc) (rd : InRange m n Jd) :
    ∃ st', buildLsq n mc m Jc Jd st = some st' ∧
      toList st' (lsqNnz n m mc Jc Jd) = tripLsq n mc m Jc Jd := by
  set N := lsqNnz n m mc Jc Jd with hN
  have hN' : N = n + m + Jc.length + Jd.length + m + (n + m + mc + m) := rfl
  obtain ⟨s1, a1, b1⟩ := C27_copyDiagToSubblock N st 1 0 0 0 (n + m) (by omega)
  obtain ⟨s2, a2, b2⟩ := append_rows N s1 Jc mc (n + m) (n + m) sc (fun e he => (rc e he).1)
    (by omega)
  obtain ⟨s3, a3, b3⟩ := append_rows N s2 Jd m (n + m + mc) (n + m + Jc.length) sd
    (fun e he => (rd e he).1) (by omega)
  obtain ⟨s4, a4, b4⟩ := C27_copyDiagToSubblock N s3 (-1) (n + m + mc) n
    (n + m + Jc.length + Jd.length) m (by omega)
  obtain ⟨s5, a5, b5⟩ := C27_setSubDiagonal N s4 0 (n + m + mc + m) 0
    (n + m + Jc.length + Jd.length + m) (by omega)
  refine ⟨s5, ?_, ?_⟩
  · unfold buildLsq
    simp only [← hN, a1, a2, a3, a4, a5, Option.bind_eq_bind, Option.bind_some]
  · rw [hN', b5, b4, b3, b2]
    rw [Nat.zero_add] at b1
    rw [b1]
    simp [toList, tripLsq]

/-- **C35, sparse problems.** The assembly never fails an assertion; a successful solve gives
multipliers minimizing the dual infeasibility; a failed solve sets them to zero (and success is
reported); a failed factorization is reported and changes nothing. Nothing but `yc`, `yd` changes. -/
theorem C35_sparse (lin : List (Ent K) → Option ((ℕ → K) → Option (ℕ → K)))
    (hl : ∀ es sol, lin es = some sol → TripSolves (n + m + mc + m) es sol)
    (st : Store K) (buf : ℕ → K) (grad : RVec K n) (Jc Jd : List (Ent K))
    (sc : RowSorted Jc) (sd : RowSorted Jd) (rc : InRange mc n Jc) (rd : InRange m n Jd)
    (it : It K n mc m) :
    ∃ ok it', lsqSparse lin st buf grad Jc Jd it = some (ok, it') ∧ OnlyY it it' ∧
      (ok = true → IsLsq grad (dense mc n Jc) (dense m n Jd) it it'.yc it'.yd ∨
        ((∃ es sol rhs, lin es = some sol ∧ sol rhs = none) ∧
          (∀ i, it'.yc i = 0) ∧ ∀ i, it'.yd i = 0)) ∧
      (ok = false → it' = it ∧ ∃ es, lin es = none) := by
  obtain ⟨st', h1, h2⟩ := buildLsq_eq (n := n) (mc := mc) (m := m) Jc Jd st sc sd rc rd
  unfold lsqSparse
  rw [h1, Option.map_some, h2]
  generalize hq : lin (tripLsq n mc m Jc Jd) = a
  match a, hq with
  | none, hq => exact ⟨false, it, rfl, rfl, by simp, fun _ => ⟨rfl, _, hq⟩⟩
  | some sol, hq =>
    have hs := hl _ _ hq
    simp only
    generalize hy : sol (sparseRhs grad it buf) = y
    match y, hy with
    | none, hy =>
      exact ⟨true, _, rfl, rfl, fun _ => Or.inr ⟨⟨_, _, _, hq, hy⟩, fun _ => rfl, fun _ => rfl⟩,
        by simp⟩
    | some y, hy =>
      refine ⟨true, _, rfl, rfl, fun _ => Or.inl ?_, by simp⟩
      have W : ∀ i j, symEntry (tripLsq n mc m Jc Jd) i j
          = (if i = j ∧ 0 ≤ i ∧ i < 0 + (n + m) then 1 else 0)
            + ((if n + m ≤ i then entry Jc (i - (n + m)) j else 0)
              + if n + m ≤ j then entry Jc (j - (n + m)) i else 0)
            + ((if n + m + mc ≤ i then entry Jd (i - (n + m + mc)) j else 0)
              + if n + m + mc ≤ j then entry Jd (j - (n + m + mc)) i else 0)
            + (if (n + m + mc ≤ i ∧ i < n + m + mc + m ∧ n ≤ j ∧ j - n = i - (n + m + mc)) ∨
                (n + m + mc ≤ j ∧ j < n + m + mc + m ∧ n ≤ i ∧ i - n = j - (n + m + mc))
                then -1 else 0) := by
        intro i j
        unfold tripLsq
        rw [symEntry_append, symEntry_append, symEntry_append, symEntry_append,
          symEntry_shift rc (n + m) (by omega), symEntry_shift rd (n + m + mc) (by omega),
          symEntry_offDiagList (n + m + mc) n m (-1) (by omega), symEntry_diagList,
          symEntry_diagList]
        simp only [ite_self, add_zero]
      have e := hs _ y hy
      generalize symEntry (tripLsq n mc m Jc Jd) = V at W e
      obtain ⟨p1, p2, p3, p4⟩ := pack4_rhs (rhsx grad it) (vecd it) (zeroVec mc) (zeroVec m) buf
      have wA : ∀ i j : Fin n, V i j = if i = j then 1 else 0 := by
        intro i j
        rw [W]
        by_cases hij : i = j
        · subst hij
          simp (disch := omega) only [if_pos, if_neg, if_true]
          simp only [add_zero]
          exact if_pos ⟨trivial, Nat.zero_le _, by omega⟩
        · have : i.val ≠ j.val := fun e => hij (Fin.ext e)
          simp (disch := omega) only [if_neg hij, if_neg]
          simp
      have wAB : ∀ (i : Fin n) (j : Fin m), V i (n + j) = 0 ∧ V (n + j) i = 0 := by
        intro i j
        rw [W, W]
        simp (disch := omega) only [if_pos, if_neg, entry_out rc, entry_out rd, add_zero, and_self]
      have wAC : ∀ (i : Fin n) (j : Fin mc), V i (n + m + j) = entry Jc j i ∧
          V (n + m + j) i = entry Jc j i := by
        intro i j
        rw [W, W]
        simp (disch := omega) only [if_pos, if_neg, entry_out rd, add_zero, zero_add, and_self,
          Nat.add_sub_cancel_left]
      have wAD : ∀ (i : Fin n) (j : Fin m), V i (n + m + mc + j) = entry Jd j i ∧
          V (n + m + mc + j) i = entry Jd j i := by
        intro i j
        rw [W, W]
        simp (disch := omega) only [if_pos, if_neg, entry_out rc, add_zero, zero_add, and_self,
          Nat.add_sub_cancel_left]
      have wB : ∀ i j : Fin m, V (n + i) (n + j) = if i = j then 1 else 0 := by
        intro i j
        rw [W]
        by_cases hij : i = j
        · subst hij
          simp (disch := omega) only [if_pos, if_neg, entry_out rc, entry_out rd, if_true]
          simp
        · have : i.val ≠ j.val := fun e => hij (Fin.ext e)
          simp (disch := omega) only [if_neg hij, if_pos, if_neg, entry_out rc, entry_out rd]
          simp
      have wBC : ∀ (i : Fin m) (j : Fin mc), V (n + i) (n + m + j) = 0 ∧
          V (n + m + j) (n + i) = 0 := by
        intro i j
        rw [W, W]
        simp (disch := omega) only [if_pos, if_neg, entry_out rc, entry_out rd, add_zero, and_self]
      have wBD : ∀ i j : Fin m, V (n + i) (n + m + mc + j) = (if i = j then -1 else 0) ∧
          V (n + m + mc + j) (n + i) = if i = j then -1 else 0 := by
        intro i j
        rw [W, W]
        by_cases hij : i = j
        · subst hij
          simp (disch := omega) only [if_pos, if_neg, entry_out rc, entry_out rd, add_zero,
            zero_add, and_self, if_true]
        · have : i.val ≠ j.val := fun e => hij (Fin.ext e)
          simp (disch := omega) only [if_neg hij, if_pos, if_neg, entry_out rc, entry_out rd,
            add_zero, and_self]
      have wC : ∀ i j : Fin mc, V (n + m + i) (n + m + j) = 0 := by
        intro i j
        rw [W]
        simp (disch := omega) only [if_pos, if_neg, entry_out rc, entry_out rd, add_zero]
      have wCD : ∀ (i : Fin mc) (j : Fin m), V (n + m + i) (n + m + mc + j) = 0 ∧
          V (n + m + mc + j) (n + m + i) = 0 := by
        intro i j
        rw [W, W]
        simp (disch := omega) only [if_pos, if_neg, entry_out rc, entry_out rd, add_zero, and_self]
      have wD : ∀ i j : Fin m, V (n + m + mc + i) (n + m + mc + j) = 0 := by
        intro i j
        rw [W]
        simp (disch := omega) only [if_pos, if_neg, entry_out rc, entry_out rd, add_zero]
      -- the four block rows
      have q1 : ∀ i : Fin n, y i = - infeasX grad (dense mc n Jc) (dense m n Jd) it
          (copyOut y (n + m) mc) (copyOut y (n + m + mc) m) i := by
        intro i
        have := e i (by omega)
        unfold sparseRhs at this
        rw [p1, sum_four] at this
        simp only [wA, wAB, wAC, wAD, ite_mul, one_mul, zero_mul, Finset.sum_ite_eq,
          Finset.mem_univ, if_true, Finset.sum_const_zero, add_zero, rhsx, axpy, negate] at this
        simp only [infeasX, dense, copyOut]
        linear_combination this
      have q2 : ∀ i : Fin m, y (n + i) = - infeasD it (copyOut y (n + m + mc) m) i := by
        intro i
        have := e (n + i) (by omega)
        unfold sparseRhs at this
        rw [p2, sum_four] at this
        simp only [wB, wAB, wBC, wBD, ite_mul, one_mul, zero_mul, Finset.sum_ite_eq,
          Finset.mem_univ, if_true, Finset.sum_const_zero, zero_add, add_zero, vecd, axpy] at this
        simp only [infeasD, copyOut]
        linear_combination this
      have q3 : ∀ i : Fin mc, ∑ k : Fin n, entry Jc i k * y k = 0 := by
        intro i
        have := e (n + m + i) (by omega)
        unfold sparseRhs at this
        rw [p3, sum_four] at this
        simpa only [wC, wAC, wBC, wCD, zero_mul, Finset.sum_const_zero, add_zero, zeroVec]
          using this
      have q4 : ∀ i : Fin m, ∑ k : Fin n, entry Jd i k * y k = y (n + i) := by
        intro i
        have := e (n + m + mc + i) (by omega)
        unfold sparseRhs at this
        rw [p4, sum_four] at this
        simp only [wD, wAD, wBD, wCD, ite_mul, zero_mul, Finset.sum_ite_eq, Finset.sum_ite_eq',
          Finset.mem_univ, if_true, Finset.sum_const_zero, add_zero, zeroVec] at this
        linear_combination this
      refine lsq_of_normal grad _ _ it _ _ (fun k => ?_) (fun k => ?_)
      · have := q3 k
        simp only [q1, mul_neg, Finset.sum_neg_distrib, neg_eq_zero] at this
        exact this
      · have := q4 k
        rw [q2] at this
        simp only [q1, mul_neg, Finset.sum_neg_distrib, neg_inj] at this
        exact this

/-! ## Initial multipliers and the update after a step -/

/-- What the updates above guarantee, in the form used by their callers. -/
def UpdOk (grad : RVec K n) (Jc : Matrix (Fin mc) (Fin n) K) (Jd : Matrix (Fin m) (Fin n) K)
    (upd : It K n mc m → Option (Bool × It K n mc m)) : Prop :=
  ∀ it, ∃ ok it', upd it = some (ok, it') ∧ OnlyY it it' ∧
    (ok = true → IsLsq grad Jc Jd it it'.yc it'.yd ∨ (∀ i, it'.yc i = 0) ∧ ∀ i, it'.yd i = 0)

theorem initialDuals_spec (maxNrm : K) (hm : 0 ≤ maxNrm) (initOk : Bool) (grad : RVec K n)
    (Jc : Matrix (Fin mc) (Fin n) K) (Jd : Matrix (Fin m) (Fin n) K)
    (upd : It K n mc m → Option (Bool × It K n mc m)) (hu : UpdOk grad Jc Jd upd)
    (it : It K n mc m) (h0 : (∀ i, it.yc i = 0) ∧ ∀ i, it.yd i = 0) :
    ∃ ok it', initialDuals maxNrm initOk upd it = some (ok, it') ∧ OnlyY it it' ∧
      ((∀ i, |it'.yc i| ≤ maxNrm) ∧ ∀ i, |it'.yd i| ≤ maxNrm) ∧
      (IsLsq grad Jc Jd it it'.yc it'.yd ∨ (∀ i, it'.yc i = 0) ∧ ∀ i, it'.yd i = 0) := by
  unfold initialDuals
  by_cases hi : initOk = false
  · rw [if_pos hi]
    exact ⟨false, it, rfl, rfl, ⟨fun i => by rw [h0.1 i, abs_zero]; exact hm,
      fun i => by rw [h0.2 i, abs_zero]; exact hm⟩, Or.inr h0⟩
  · rw [if_neg hi]
    obtain ⟨ok, it', h1, h2, h3⟩ := hu it
    rw [h1, Option.map_some]
    simp only
    generalize hN : (if infnorm it'.yc > infnorm it'.yd then infnorm it'.yc else infnorm it'.yd) = N
    by_cases hc : N > maxNrm ∨ ok = false
    · rw [if_pos hc]
      exact ⟨ok, _, rfl, h2, ⟨fun i => by simp [zeroVec, hm], fun i => by simp [zeroVec, hm]⟩,
        Or.inr ⟨fun _ => rfl, fun _ => rfl⟩⟩
    · rw [if_neg hc]
      push Not at hc
      have hb : infnorm it'.yc ≤ maxNrm ∧ infnorm it'.yd ≤ maxNrm := by
        rw [← hN] at hc
        split_ifs at hc with hx
        · exact ⟨hc.1, hx.le.trans hc.1⟩
        · exact ⟨(not_lt.1 hx).trans hc.1, hc.1⟩
      refine ⟨ok, it', rfl, h2, ⟨fun i => (infnorm_ge _ i).trans hb.1,
        fun i => (infnorm_ge _ i).trans hb.2⟩, h3 (by simpa using hc.2)⟩

/-- **C35, initial multipliers, dense problems.** Starting from zero multipliers (as the starting
procedure sets them), they are either the least-squares multipliers or zero, and never exceed the
limit `duals_lsq_ini_max`; nothing else of the iterate changes. -/
theorem C35_initial_dense (maxNrm : K) (hm : 0 ≤ maxNrm) (initOk : Bool)
    (lin : NMat K → Option ((ℕ → K) → Option (ℕ → K))) (hl : LinOk (mc + m) lin)
    (w : Work K mc m) (grad : RVec K n) (Jc : Matrix (Fin mc) (Fin n) K)
    (Jd : Matrix (Fin m) (Fin n) K) (it : It K n mc m)
    (h0 : (∀ i, it.yc i = 0) ∧ ∀ i, it.yd i = 0) :
    ∃ ok it', initialDuals maxNrm initOk (fun it => some (lsqDense lin w grad Jc Jd it)) it
        = some (ok, it') ∧ OnlyY it it' ∧
      ((∀ i, |it'.yc i| ≤ maxNrm) ∧ ∀ i, |it'.yd i| ≤ maxNrm) ∧
      (IsLsq grad Jc Jd it it'.yc it'.yd ∨ (∀ i, it'.yc i = 0) ∧ ∀ i, it'.yd i = 0) := by
  refine initialDuals_spec maxNrm hm initOk grad Jc Jd _ (fun it => ?_) it h0
  obtain ⟨h1, h2, -⟩ := C35_dense lin hl w grad Jc Jd it _ _ rfl
  exact ⟨_, _, rfl, h1, fun h => Or.inl (h2 h)⟩

/-- **C35, initial multipliers, mixed dense-sparse problems.** -/
theorem C35_initial_mds (maxNrm : K) (hm : 0 ≤ maxNrm) (initOk : Bool)
    (lin : NMat K → Option ((ℕ → K) → Option (ℕ → K))) (hl : LinOk (mc + m) lin)
    (w : Work K mc m) (grad : RVec K (ns + nd)) (Jc : MdsJac K mc nd) (Jd : MdsJac K m nd)
    (sc : Sorted Jc.sp) (sd : Sorted Jd.sp) (rc : InRange mc ns Jc.sp) (rd : InRange m ns Jd.sp)
    (it : It K (ns + nd) mc m) (h0 : (∀ i, it.yc i = 0) ∧ ∀ i, it.yd i = 0) :
    ∃ ok it', initialDuals maxNrm initOk (lsqMds lin w grad Jc Jd) it
        = some (ok, it') ∧ OnlyY it it' ∧
      ((∀ i, |it'.yc i| ≤ maxNrm) ∧ ∀ i, |it'.yd i| ≤ maxNrm) ∧
      (IsLsq grad (Jc.toMat ns) (Jd.toMat ns) it it'.yc it'.yd ∨
        (∀ i, it'.yc i = 0) ∧ ∀ i, it'.yd i = 0) := by
  refine initialDuals_spec maxNrm hm initOk grad _ _ _ (fun it => ?_) it h0
  obtain ⟨ok, it', h1, h2, h3, -⟩ := C35_mds lin hl w grad Jc Jd sc sd rc rd it
  exact ⟨ok, it', h1, h2, fun h => Or.inl (h3 h)⟩

/-- **C35, initial multipliers, sparse problems.** -/
theorem C35_initial_sparse (maxNrm : K) (hm : 0 ≤ maxNrm) (initOk : Bool)
    (lin : List (Ent K) → Option ((ℕ → K) → Option (ℕ → K)))
    (hl : ∀ es sol, lin es = some sol → TripSolves (n + m + mc + m) es sol)
    (st : Store K) (buf : ℕ → K) (grad : RVec K n) (Jc Jd : List (Ent K))
    (sc : RowSorted Jc) (sd : RowSorted Jd) (rc : InRange mc n Jc) (rd : InRange m n Jd)
    (it : It K n mc m) (h0 : (∀ i, it.yc i = 0) ∧ ∀ i, it.yd i = 0) :
    ∃ ok it', initialDuals maxNrm initOk (lsqSparse lin st buf grad Jc Jd) it
        = some (ok, it') ∧ OnlyY it it' ∧
      ((∀ i, |it'.yc i| ≤ maxNrm) ∧ ∀ i, |it'.yd i| ≤ maxNrm) ∧
      (IsLsq grad (dense mc n Jc) (dense m n Jd) it it'.yc it'.yd ∨
        (∀ i, it'.yc i = 0) ∧ ∀ i, it'.yd i = 0) := by
  refine initialDuals_spec maxNrm hm initOk grad _ _ _ (fun it => ?_) it h0
  obtain ⟨ok, it', h1, h2, h3, -⟩ := C35_sparse lin hl st buf grad Jc Jd sc sd rc rd it
  exact ⟨ok, it', h1, h2, fun h => (h3 h).imp_right And.right⟩

/-- **C35, update after a step** (dense problems only, as in the code). The primals and slacks of the
trial iterate are kept and its bound multipliers are those of the linear update; the constraint
multipliers are those of the linear update when the trial point is not feasible enough, and
otherwise, on success, minimize the dual infeasibility with the new bound multipliers. -/
theorem C35_go (b : Bounds K n m) (tol : K) (lin : NMat K → Option ((ℕ → K) → Option (ℕ → K)))
    (hl : LinOk (mc + m) lin) (w : Work K mc m) (grad : RVec K n)
    (Jc : Matrix (Fin mc) (Fin n) K) (Jd : Matrix (Fin m) (Fin n) K)
    (cur plus dir : It K n mc m) (ap ad mu kappa infeas : K) :
    ∃ ok it', lsqGo b tol (fun it => some (lsqDense lin w grad Jc Jd it)) cur plus dir ap ad mu kappa
        infeas = some (ok, it') ∧
      OnlyY (linearDualsUpdate b cur plus dir ap ad mu kappa) it' ∧
      (tol < infeas → ok = true ∧ it' = linearDualsUpdate b cur plus dir ap ad mu kappa) ∧
      (infeas ≤ tol → ok = true → IsLsq grad Jc Jd it' it'.yc it'.yd) := by
  unfold lsqGo
  change ∃ ok it', (if infeas > tol then some (true, linearDualsUpdate b cur plus dir ap ad mu kappa)
    else some (lsqDense lin w grad Jc Jd (linearDualsUpdate b cur plus dir ap ad mu kappa)))
      = some (ok, it') ∧ _
  by_cases h : infeas > tol
  · rw [if_pos h]
    exact ⟨true, _, rfl, rfl, fun _ => ⟨rfl, rfl⟩, fun h' => absurd h (not_lt.2 h')⟩
  · rw [if_neg h]
    obtain ⟨h1, h2, -⟩ := C35_dense lin hl w grad Jc Jd
      (linearDualsUpdate b cur plus dir ap ad mu kappa) _ _ rfl
    refine ⟨_, _, rfl, h1, fun h' => absurd h' h, fun _ h' => ?_⟩
    have h3 := h2 h'
    intro yc' yd'
    rw [← h1.obj, ← h1.obj]
    exact h3 yc' yd'

/-! ## Uniqueness, definiteness, and the residual -/

/-- The rows of the equality Jacobian are linearly independent. -/
def FullRowRank (Jc : Matrix (Fin mc) (Fin n) K) : Prop :=
  ∀ u : Fin mc → K, (∀ i, ∑ k, Jc k i * u k = 0) → ∀ k, u k = 0

/-- **C35, the answer does not depend on the method.** Two minimizers leave the same dual
infeasibility and have the same multipliers of the inequalities; with independent equality gradients
they are equal. In particular the dense, mixed and sparse computations agree. -/
theorem C35_unique (grad : RVec K n) (Jc : Matrix (Fin mc) (Fin n) K)
    (Jd : Matrix (Fin m) (Fin n) K) (it : It K n mc m) (yc yc' : RVec K mc) (yd yd' : RVec K m)
    (h : IsLsq grad Jc Jd it yc yd) (h' : IsLsq grad Jc Jd it yc' yd') :
    (∀ i, infeasX grad Jc Jd it yc yd i = infeasX grad Jc Jd it yc' yd' i) ∧ yd = yd' ∧
      (FullRowRank Jc → yc = yc') := by
  have hv : lsqObj grad Jc Jd it yc yd = lsqObj grad Jc Jd it yc' yd' := le_antisymm (h _ _) (h' _ _)
  set r := infeasX grad Jc Jd it yc yd with hr
  set r' := infeasX grad Jc Jd it yc' yd' with hr'
  set t := infeasD it yd with ht
  set t' := infeasD it yd' with ht'
  have m1 : ∀ i, infeasX grad Jc Jd it (fun k => (yc k + yc' k) / 2) (fun k => (yd k + yd' k) / 2) i
      = (r i + r' i) / 2 := by
    intro i
    have s1 : ∑ k, Jc k i * ((yc k + yc' k) / 2)
        = (∑ k, Jc k i * yc k + ∑ k, Jc k i * yc' k) / 2 := by
      rw [← Finset.sum_add_distrib, Finset.sum_div]
      exact Finset.sum_congr rfl fun k _ => by ring
    have s2 : ∑ k, Jd k i * ((yd k + yd' k) / 2)
        = (∑ k, Jd k i * yd k + ∑ k, Jd k i * yd' k) / 2 := by
      rw [← Finset.sum_add_distrib, Finset.sum_div]
      exact Finset.sum_congr rfl fun k _ => by ring
    rw [hr, hr']
    simp only [infeasX, s1, s2]
    field_simp
    ring
  have m2 : ∀ k, infeasD it (fun k => (yd k + yd' k) / 2) k = (t k + t' k) / 2 := by
    intro k
    rw [ht, ht']
    simp only [infeasD]
    field_simp
    ring
  have hm := h (fun k => (yc k + yc' k) / 2) (fun k => (yd k + yd' k) / 2)
  unfold lsqObj at hm hv
  simp only [m1, m2, ← hr, ← hr', ← ht, ← ht'] at hm hv
  have par : ∀ {a : ℕ} (u v : Fin a → K), ∑ i, ((u i + v i) / 2) ^ 2
      = (∑ i, u i ^ 2 + ∑ i, v i ^ 2) / 2 - (∑ i, (u i - v i) ^ 2) / 4 := by
    intro a u v
    rw [← Finset.sum_add_distrib, Finset.sum_div, Finset.sum_div, ← Finset.sum_sub_distrib]
    refine Finset.sum_congr rfl fun i _ => ?_
    field_simp
    ring
  rw [par, par] at hm
  have n1 : 0 ≤ ∑ i, (r i - r' i) ^ 2 := Finset.sum_nonneg fun i _ => sq_nonneg _
  have n2 : 0 ≤ ∑ i, (t i - t' i) ^ 2 := Finset.sum_nonneg fun i _ => sq_nonneg _
  have z1 : ∑ i, (r i - r' i) ^ 2 = 0 := by linarith
  have z2 : ∑ i, (t i - t' i) ^ 2 = 0 := by linarith
  have q1 : ∀ i, r i = r' i := fun i => by
    have := (Finset.sum_eq_zero_iff_of_nonneg fun i _ => sq_nonneg (r i - r' i)).1 z1 i
      (Finset.mem_univ i)
    exact sub_eq_zero.1 (by simpa using this)
  have q2 : yd = yd' := by
    funext k
    have := (Finset.sum_eq_zero_iff_of_nonneg fun i _ => sq_nonneg (t i - t' i)).1 z2 k
      (Finset.mem_univ k)
    have h3 : t k = t' k := sub_eq_zero.1 (by simpa using this)
    rw [ht, ht'] at h3
    simp only [infeasD] at h3
    linarith
  refine ⟨q1, q2, fun hf => ?_⟩
  funext k
  have := hf (fun k => yc k - yc' k) (fun i => ?_) k
  · exact sub_eq_zero.1 this
  · have := q1 i
    rw [hr, hr', q2] at this
    simp only [infeasX] at this
    simp only [mul_sub, Finset.sum_sub_distrib]
    linarith

/-- The quadratic form of the symmetric matrix whose upper triangle is `W`. -/
def quadForm (N : ℕ) (W : NMat K) (u : ℕ → K) : K :=
  ∑ r ∈ Finset.range N, ∑ c ∈ Finset.range N, W (min r c) (max r c) * u r * u c

theorem quadForm_lsq (w : Work K mc m) (Jc : Matrix (Fin mc) (Fin n) K)
    (Jd : Matrix (Fin m) (Fin n) K) (u : ℕ → K) :
    quadForm (mc + m) (lsqDenseMatrix w Jc Jd) u
      = ∑ i, (∑ k : Fin mc, Jc k i * u k + ∑ k : Fin m, Jd k i * u (mc + k)) ^ 2
        + ∑ k : Fin m, u (mc + k) ^ 2 := by
  obtain ⟨b1, b2, b3⟩ := lsqMatrix_blocks (mc := mc) (m := m) (denseMatTrans 0 w.cc 1 Jc Jc)
    (denseMatTrans 0 w.cd 1 Jc Jd) (denseMatTrans 0 w.dd 1 Jd Jd) w.M
  change quadForm (mc + m) (lsqMatrix mc m _ _ _ w.M) u = _
  generalize lsqMatrix mc m _ _ _ w.M = V at b1 b2 b3
  have hcc : ∀ i j : Fin mc, V (min i.val j.val) (max i.val j.val) = ∑ k, Jc i k * Jc j k := by
    intro i j
    rcases le_total i.val j.val with hh | hh
    · rw [min_eq_left hh, max_eq_right hh, b1]; simp [denseMatTrans]
    · rw [min_eq_right hh, max_eq_left hh, b1]; simp [denseMatTrans, mul_comm]
  have hdd : ∀ i j : Fin m, V (min (mc + i.val) (mc + j.val)) (max (mc + i.val) (mc + j.val))
      = ∑ k, Jd i k * Jd j k + if i = j then 1 else 0 := by
    intro i j
    rcases le_total i.val j.val with hh | hh
    · rw [min_eq_left (by omega), max_eq_right (by omega), b3]; simp [denseMatTrans]
    · rw [min_eq_right (by omega), max_eq_left (by omega), b3]
      simp only [eq_comm (a := i)]; simp [denseMatTrans, mul_comm]
  have hcd : ∀ (i : Fin mc) (j : Fin m), V (min i.val (mc + j.val)) (max i.val (mc + j.val))
      = ∑ k, Jc i k * Jd j k := by
    intro i j
    rw [min_eq_left (by omega), max_eq_right (by omega), b2]; simp [denseMatTrans]
  have hdc : ∀ (i : Fin m) (j : Fin mc), V (min (mc + i.val) j.val) (max (mc + i.val) j.val)
      = ∑ k, Jd i k * Jc j k := by
    intro i j
    rw [min_eq_right (by omega), max_eq_left (by omega), b2]; simp [denseMatTrans, mul_comm]
  have prod : ∀ {a b : ℕ} (A : Matrix (Fin a) (Fin n) K) (B : Matrix (Fin b) (Fin n) K)
      (x : Fin a → K) (y : Fin b → K),
      ∑ i : Fin n, (∑ k, A k i * x k) * (∑ l, B l i * y l)
        = ∑ k, ∑ l, (∑ i, A k i * B l i) * x k * y l := by
    intro a b A B x y
    have e1 : ∀ i : Fin n, (∑ k, A k i * x k) * (∑ l, B l i * y l)
        = ∑ k, ∑ l, A k i * B l i * x k * y l := by
      intro i
      rw [Finset.sum_mul_sum]
      exact Finset.sum_congr rfl fun k _ => Finset.sum_congr rfl fun l _ => by ring
    rw [Finset.sum_congr rfl fun i _ => e1 i, Finset.sum_comm]
    refine Finset.sum_congr rfl fun k _ => ?_
    rw [Finset.sum_comm]
    refine Finset.sum_congr rfl fun l _ => ?_
    rw [Finset.sum_mul, Finset.sum_mul]
  have sq : ∀ i, (∑ k : Fin mc, Jc k i * u k + ∑ k : Fin m, Jd k i * u (mc + k)) ^ 2
      = (∑ k : Fin mc, Jc k i * u k) * (∑ k : Fin mc, Jc k i * u k)
        + (∑ k : Fin mc, Jc k i * u k) * (∑ k : Fin m, Jd k i * u (mc + k))
        + (∑ k : Fin m, Jd k i * u (mc + k)) * (∑ k : Fin mc, Jc k i * u k)
        + (∑ k : Fin m, Jd k i * u (mc + k)) * (∑ k : Fin m, Jd k i * u (mc + k)) := fun i => by ring
  simp only [sq, Finset.sum_add_distrib]
  rw [prod Jc Jc (fun k => u k) fun k => u k, prod Jc Jd (fun k => u k) fun k => u (mc + k),
    prod Jd Jc (fun k => u (mc + k)) fun k => u k,
    prod Jd Jd (fun k => u (mc + k)) fun k => u (mc + k)]
  unfold quadForm
  rw [sum_two]
  simp only [sum_two, hcc, hcd, hdc, hdd, Finset.sum_add_distrib, add_mul, ite_mul, one_mul,
    zero_mul, Finset.sum_ite_eq, Finset.mem_univ, if_true]
  simp only [pow_two]
  ring

/-- **C35, definiteness.** Whatever the work space held, the dense system is positive definite exactly
when the equality gradients are independent; the Cholesky factorization the dense updater relies on
exists in exactly that case. -/
theorem C35_definite (w : Work K mc m) (Jc : Matrix (Fin mc) (Fin n) K)
    (Jd : Matrix (Fin m) (Fin n) K) :
    (∀ u : ℕ → K, (∃ k < mc + m, u k ≠ 0) → 0 < quadForm (mc + m) (lsqDenseMatrix w Jc Jd) u) ↔
      FullRowRank Jc := by
  constructor
  · intro h v hv k
    by_contra hk
    have := h (fun j => if hj : j < mc then v ⟨j, hj⟩ else 0)
      ⟨k, by omega, by simpa using hk⟩
    rw [quadForm_lsq] at this
    simp [hv] at this
  · rintro h u ⟨k, hk, hu⟩
    rw [quadForm_lsq]
    have n1 : 0 ≤ ∑ i, (∑ k : Fin mc, Jc k i * u k + ∑ k : Fin m, Jd k i * u (mc + k)) ^ 2 :=
      Finset.sum_nonneg fun i _ => sq_nonneg _
    have n2 : 0 ≤ ∑ k : Fin m, u (mc + k) ^ 2 := Finset.sum_nonneg fun i _ => sq_nonneg _
    refine lt_of_le_of_ne (add_nonneg n1 n2) fun he => hu ?_
    have z1 := (add_eq_zero_iff_of_nonneg n1 n2).1 he.symm
    have y2 : ∀ k : Fin m, u (mc + k) = 0 := fun k => by
      have := (Finset.sum_eq_zero_iff_of_nonneg fun i _ => sq_nonneg (u (mc + (i : Fin m)))).1 z1.2 k
        (Finset.mem_univ k)
      simpa using this
    have y1 : ∀ i, ∑ k : Fin mc, Jc k i * u k = 0 := fun i => by
      have := (Finset.sum_eq_zero_iff_of_nonneg fun (i : Fin n) _ => sq_nonneg
        (∑ k : Fin mc, Jc k i * u k + ∑ k : Fin m, Jd k i * u (mc + k))).1 z1.1 i (Finset.mem_univ i)
      simpa [y2] using this
    by_cases hkm : k < mc
    · exact h (fun k => u k) y1 ⟨k, hkm⟩
    · have := y2 ⟨k - mc, by omega⟩
      simpa [Nat.add_sub_cancel' (not_lt.1 hkm)] using this

/-- **C35, effect on the optimality error.** The quantity minimized is the sum of squares of the dual
blocks of the residual of the original problem, so a successful update never increases it. -/
theorem C35_residual (it : It ℝ n mc m) (e : Resid.Eval n mc m) (yc : RVec ℝ mc) (yd : RVec ℝ m)
    (h : IsLsq e.grad e.Jc e.Jd it yc yd) :
    ∑ i, Resid.rxPlain { it with yc := yc, yd := yd } e i ^ 2
        + ∑ k, Resid.rdPlain { it with yc := yc, yd := yd } k ^ 2
      ≤ ∑ i, Resid.rxPlain it e i ^ 2 + ∑ k, Resid.rdPlain it k ^ 2 := by
  have key : ∀ j : It ℝ n mc m, ∑ i, Resid.rxPlain j e i ^ 2 + ∑ k, Resid.rdPlain j k ^ 2
      = lsqObj e.grad e.Jc e.Jd j j.yc j.yd := by
    intro j
    unfold lsqObj
    congr 1
    · refine Finset.sum_congr rfl fun i _ => ?_
      simp only [Resid.rxPlain, Kkt.transTimesVec, axpy, infeasX, Matrix.mulVec, dotProduct,
        Matrix.transpose_apply]
      ring
    · refine Finset.sum_congr rfl fun k _ => ?_
      simp only [Resid.rdPlain, axpy, infeasD]
      ring
  rw [key, key]
  exact h it.yc it.yd

/-! ## Hypotheses are met -/

/-- A factorization oracle for the 2 by 2 matrix `[1 1; 1 2]`. -/
def exLin : NMat ℚ → Option ((ℕ → ℚ) → Option (ℕ → ℚ)) := fun W =>
  if W 0 0 = 1 ∧ W 0 1 = 1 ∧ W 1 1 = 2 then
    some fun r => some fun k => if k = 0 then 2 * r 0 - r 1 else r 1 - r 0
  else none

theorem exLin_ok : LinOk (1 + 1) exLin := by
  intro W sol h rhs x hx r hr
  unfold exLin at h
  split_ifs at h with hc
  obtain rfl := Option.some.inj h
  obtain rfl := Option.some.inj hx
  obtain ⟨h1, h2, h3⟩ := hc
  interval_cases r
  · simp [Finset.sum_range_succ, h1, h2]; ring
  · simp [Finset.sum_range_succ, h2, h3]; ring

def exIt : It ℚ 1 1 1 where
  x := ![1]
  d := ![1]
  sxl := ![1]
  sxu := ![1]
  sdl := ![1]
  sdu := ![1]
  yc := ![0]
  yd := ![0]
  zl := ![2]
  zu := ![1]
  vl := ![4]
  vu := ![1]

def exWork : Work ℚ 1 1 := ⟨fun _ _ => 7, fun _ _ => 5, fun _ _ => 3, fun _ _ => 2, ![9], ![8], fun _ => 6⟩

example : (lsqDense exLin exWork ![5] !![1] !![1] exIt).1 = true ∧
    (lsqDense exLin exWork ![5] !![1] !![1] exIt).2.yc 0 = -1 ∧
    (lsqDense exLin exWork ![5] !![1] !![1] exIt).2.yd 0 = -3 := by decide +kernel

example : IsLsq ![5] !![1] !![1] exIt ![-1] ![-3] := by
  have h := (C35_dense exLin exLin_ok exWork ![5] !![1] !![1] exIt
    (lsqDense exLin exWork ![5] !![1] !![1] exIt).1 (lsqDense exLin exWork ![5] !![1] !![1] exIt).2
    rfl).2.1 (by decide +kernel)
  have e1 : (lsqDense exLin exWork ![5] !![1] !![1] exIt).2.yc = ![-1] := by decide +kernel
  have e2 : (lsqDense exLin exWork ![5] !![1] !![1] exIt).2.yd = ![-3] := by decide +kernel
  rwa [e1, e2] at h

/-- The limit on the initial multipliers takes effect. -/
example : (initialDuals 2 true (fun it => some (lsqDense exLin exWork ![5] !![1] !![1] it)) exIt).map
    (fun r => (r.1, r.2.yc 0, r.2.yd 0)) = some (true, 0, 0) := by decide +kernel

example : (initialDuals 3 true (fun it => some (lsqDense exLin exWork ![5] !![1] !![1] it)) exIt).map
    (fun r => (r.1, r.2.yc 0, r.2.yd 0)) = some (true, -1, -3) := by decide +kernel

example : FullRowRank (!![1] : Matrix (Fin 1) (Fin 1) ℚ) := by
  intro u h k
  have := h 0
  fin_cases k
  simpa using this

/-- With dependent equality gradients the system is singular. -/
example : ¬ FullRowRank (!![1; 1] : Matrix (Fin 2) (Fin 1) ℚ) := by
  intro h
  have := h ![1, -1] (fun i => by fin_cases i; simp) 0
  simp at this

def exJ : List (Ent ℚ) := [⟨0, 0, 1⟩]

/-- A factorization oracle for the 4 by 4 sparse system with unit Jacobians. -/
def exLinS : List (Ent ℚ) → Option ((ℕ → ℚ) → Option (ℕ → ℚ)) := fun es =>
  if ∀ i ∈ List.range 4, ∀ j ∈ List.range 4, symEntry es i j
      = (![![1, 0, 1, 1], ![0, 1, 0, -1], ![1, 0, 0, 0], ![1, -1, 0, 0]] : Fin 4 → Fin 4 → ℚ)
        (Fin.ofNat 4 i) (Fin.ofNat 4 j) then
    some fun r => some fun k =>
      if k = 0 then r 2 else if k = 1 then r 2 - r 3
      else if k = 2 then r 0 - 2 * r 2 + r 3 + r 1 else r 2 - r 3 - r 1
  else none

theorem exLinS_ok : ∀ es sol, exLinS es = some sol → TripSolves (1 + 1 + 1 + 1) es sol := by
  intro es sol h rhs x hx r hr
  unfold exLinS at h
  split_ifs at h with hc
  obtain rfl := Option.some.inj h
  obtain rfl := Option.some.inj hx
  have hc' : ∀ i < 4, ∀ j < 4, symEntry es i j = _ := fun i hi j hj =>
    hc i (List.mem_range.2 hi) j (List.mem_range.2 hj)
  interval_cases r <;>
    simp only [Finset.sum_range_succ, Finset.sum_range_zero, hc' 0 (by omega) 0 (by omega),
      hc' 0 (by omega) 1 (by omega), hc' 0 (by omega) 2 (by omega), hc' 0 (by omega) 3 (by omega),
      hc' 1 (by omega) 0 (by omega), hc' 1 (by omega) 1 (by omega), hc' 1 (by omega) 2 (by omega),
      hc' 1 (by omega) 3 (by omega), hc' 2 (by omega) 0 (by omega), hc' 2 (by omega) 1 (by omega),
      hc' 2 (by omega) 2 (by omega), hc' 2 (by omega) 3 (by omega), hc' 3 (by omega) 0 (by omega),
      hc' 3 (by omega) 1 (by omega), hc' 3 (by omega) 2 (by omega), hc' 3 (by omega) 3 (by omega)] <;>
    (norm_num [Fin.ofNat]; try ring)

/-- The sparse computation gives the same multipliers as the dense one above. -/
example : (lsqSparse exLinS (fun _ => ⟨0, 0, 0⟩) (fun _ => 0) ![5] exJ exJ exIt).map
    (fun r => (r.1, r.2.yc 0, r.2.yd 0)) = some (true, -1, -3) := by decide +kernel

/-- ... and so does the mixed computation with the variable in the sparse part. -/
example : (lsqMds (ns := 1) (nd := 0) exLin exWork ![5] ⟨exJ, fun _ => ![]⟩ ⟨exJ, fun _ => ![]⟩ exIt).map
    (fun r => (r.1, r.2.yc 0, r.2.yd 0)) = some (true, -1, -3) := by decide +kernel

end Hiop.Duals
