import Verif.Kkt.Props
import Mathlib.Algebra.BigOperators.Intervals
import Mathlib.Tactic.IntervalCases

/-!
# Dense assembly of the symmetric systems: dense and mixed dense-sparse formulations

Source: `src/Optimization/hiopKKTLinSysDense.hpp`, `hiopKKTLinSysMDS.cpp`,
`src/LinAlg/hiopMatrixDenseRowMajor.cpp`. The system matrix is a function of two natural-number
indices of which only the upper triangle is read by the (oracle) solver.
-/

set_option linter.unusedSectionVars false

namespace Hiop.Kkt

open Hiop.Vec Hiop.Iterate

variable {K : Type*} [Field K] [LinearOrder K] {n mc m p q ns nd : ℕ}

/-! ## Model -/

/-- Row-major dense matrix storage, indices as in the code. -/
abbrev NMat (K : Type*) := ℕ → ℕ → K

/-- Entry `k` of a vector read by a loop that stops at the vector's length. -/
def at1 (v : RVec K p) (k : ℕ) : K := if h : k < p then v ⟨k, h⟩ else 0

/-- Entry `(i,j)` of a matrix read by loops that stop at its dimensions. -/
def at2 (A : Matrix (Fin p) (Fin q) K) (i j : ℕ) : K :=
  if h : i < p ∧ j < q then A ⟨i, h.1⟩ ⟨j, h.2⟩ else 0

/-- `addUpperTriangleToSymDenseMatrixUpperTriangle(diag_start, alpha, W)`,
hiopMatrixDenseRowMajor.cpp:810-829; each destination entry is visited once. -/
def addUpperTri (ds : ℕ) (al : K) (A : Matrix (Fin p) (Fin p) K) (W : NMat K) : NMat K :=
  fun i j => W i j + if ds ≤ i ∧ i ≤ j then al * at2 A (i - ds) (j - ds) else 0

/-- `transAddToSymDenseMatrixUpperTriangle(row_start, col_start, alpha, W)`,
hiopMatrixDenseRowMajor.cpp:779-800. -/
def transAdd (rs cs : ℕ) (al : K) (A : Matrix (Fin p) (Fin q) K) (W : NMat K) : NMat K :=
  fun i j => W i j + if rs ≤ i ∧ cs ≤ j then al * at2 A (j - cs) (i - rs) else 0

/-- `addSubDiagonal(alpha, start, d)`, hiopMatrixDenseRowMajor.cpp:719-730. -/
def addSubDiag (al : K) (st : ℕ) (v : RVec K p) (W : NMat K) : NMat K :=
  fun i j => W i j + if i = j ∧ st ≤ i then al * at1 v (i - st) else 0

/-- `addSubDiagonal(start_on_dest, alpha, d, start_on_src, num)`,
hiopMatrixDenseRowMajor.cpp:735-753. -/
def addSubDiagFrom (st : ℕ) (al : K) (v : RVec K p) (src num : ℕ) (W : NMat K) : NMat K :=
  fun i j => W i j + if i = j ∧ st ≤ i ∧ i < st + num then al * at1 v (i - st + src) else 0

/-- Weighted inner products of the rows of two matrices, the accumulations
hiopMatrixSparseTriplet.cpp:412-436, 495-512 with the sparse row walks written as sums over all
columns. -/
def wprod {s : ℕ} (A : Matrix (Fin p) (Fin q) K) (D : RVec K q) (B : Matrix (Fin s) (Fin q) K) :
    Matrix (Fin p) (Fin s) K := fun a c => ∑ k, A a k / D k * B c k

/-- `addMDinvMtransToDiagBlockOfSymDeMatUTri(start, alpha, D, W)`,
hiopMatrixSparseTriplet.cpp:390-441. -/
def addMDinvMt (st : ℕ) (al : K) (A : Matrix (Fin p) (Fin q) K) (D : RVec K q) (W : NMat K) :
    NMat K :=
  fun i j => W i j +
    if st ≤ i ∧ i ≤ j then al * at2 (wprod A D A) (i - st) (j - st) else 0

/-- `addMDinvNtransToSymDeMatUTri(row_start, col_start, alpha, D, N, W)`,
hiopMatrixSparseTriplet.cpp:447-525. -/
def addMDinvNt {s : ℕ} (rs cs : ℕ) (al : K) (A : Matrix (Fin p) (Fin q) K) (D : RVec K q)
    (B : Matrix (Fin s) (Fin q) K) (W : NMat K) : NMat K :=
  fun i j => W i j +
    if rs ≤ i ∧ cs ≤ j then al * at2 (wprod A D B) (i - rs) (j - cs) else 0

/-- `copyToStarting(dest, start)` and `startingAtCopyToStartingAt` into a buffer. -/
def copyTo (v : RVec K p) (buf : ℕ → K) (st : ℕ) : ℕ → K :=
  fun k => if h : st ≤ k ∧ k - st < p then v ⟨k - st, h.2⟩ else buf k

/-- Copy of `p` entries of a buffer starting at `st`. -/
def copyOut (buf : ℕ → K) (st p : ℕ) : RVec K p := fun k => buf (st + k)

/-- `hiopKKTLinSysDenseXYcYd::build_kkt_matrix`, hiopKKTLinSysDense.hpp:84-168: `delta_cd` is put
on the diagonal from `nx` on, `delta_cc` nowhere. -/
def denseXYcYdMatrix (M : Mats K n mc m) (dl : Deltas K n mc m) (dx : RVec K n)
    (ddInv : RVec K m) : NMat K :=
  let W : NMat K := fun _ _ => 0
  let W := addUpperTri 0 1 M.H W
  let W := transAdd 0 n 1 M.Jc W
  let W := transAdd 0 (n + mc) 1 M.Jd W
  let W := addSubDiag 1 0 dx W
  let W := addSubDiag 1 0 dl.wx W
  let W := addSubDiag (-1) (n + mc) ddInv W
  addSubDiag (-1) n dl.cd W

/-- `hiopKKTLinSysDenseXYcYd::solveCompressed`, hiopKKTLinSysDense.hpp:170-206. -/
def pack3 (lin : (ℕ → K) → Option (ℕ → K)) (buf : ℕ → K) : Solve3 K n mc m := fun rx ryc ryd =>
  let rhs := copyTo ryd (copyTo ryc (copyTo rx buf 0) n) (n + mc)
  match lin rhs with
  | none => none
  | some x => some (copyOut x 0 n, copyOut x n mc, copyOut x (n + mc) m)

/-- `hiopKKTLinSysDenseXDYcYd::build_kkt_matrix`, hiopKKTLinSysDense.hpp:247-327. -/
def denseXDYcYdMatrix (M : Mats K n mc m) (dl : Deltas K n mc m) (dx : RVec K n) (dd : RVec K m) :
    NMat K :=
  let W : NMat K := fun _ _ => 0
  let W := addUpperTri 0 1 M.H W
  let W := transAdd 0 (n + m) 1 M.Jc W
  let W := transAdd 0 (n + m + mc) 1 M.Jd W
  let W := addSubDiag 1 0 dx W
  let W := addSubDiag 1 0 dl.wx W
  let W := addSubDiag 1 n dd W
  let W := addSubDiag 1 n dl.wd W
  let W : NMat K := fun i j =>
    W i j - if n ≤ i ∧ i < n + m ∧ j = n + m + mc + (i - n) then 1 else 0
  addSubDiag (-1) (n + m) dl.cd W

/-- `hiopKKTLinSysDenseXDYcYd::solveCompressed`, hiopKKTLinSysDense.hpp:329-373. -/
def pack4 (lin : (ℕ → K) → Option (ℕ → K)) (buf : ℕ → K) : Solve4 K n mc m :=
  fun rx rd ryc ryd =>
  let rhs := copyTo ryd (copyTo ryc (copyTo rd (copyTo rx buf 0) n) (n + m)) (n + m + mc)
  match lin rhs with
  | none => none
  | some x =>
    some (copyOut x 0 n, copyOut x n m, copyOut x (n + m) mc, copyOut x (n + m + mc) m)

/-- Blocks of a mixed dense-sparse problem: diagonal sparse Hessian, dense Hessian, sparse and
dense parts of the Jacobians; hiopMatrixMDS.hpp. -/
structure MdsMats (K : Type*) (ns nd mc m : ℕ) where
  hs : RVec K ns
  Hd : Matrix (Fin nd) (Fin nd) K
  Jcs : Matrix (Fin mc) (Fin ns) K
  Jcd : Matrix (Fin mc) (Fin nd) K
  Jds : Matrix (Fin m) (Fin ns) K
  Jdd : Matrix (Fin m) (Fin nd) K

/-- `Hxs_`, hiopKKTLinSysMDS.cpp:219-232. -/
def mdsHxs (B : MdsMats K ns nd mc m) (dx wx : RVec K (ns + nd)) : RVec K ns :=
  fun i => dx (Fin.castAdd nd i) + 1 * wx (Fin.castAdd nd i) + 1 * B.hs i

/-- `hiopKKTLinSysCompressedMDSXYcYd::build_kkt_matrix`, hiopKKTLinSysMDS.cpp:195-291. -/
def mdsMatrix (B : MdsMats K ns nd mc m) (dl : Deltas K (ns + nd) mc m) (dx : RVec K (ns + nd))
    (ddInv : RVec K m) : NMat K :=
  let W : NMat K := fun _ _ => 0
  let W := addUpperTri 0 1 B.Hd W
  let W := transAdd 0 nd 1 B.Jcd W
  let W := transAdd 0 (nd + mc) 1 B.Jdd W
  let W := addSubDiagFrom 0 1 dx ns nd W
  let W := addSubDiagFrom 0 1 dl.wx ns nd W
  let hxs := mdsHxs B dx dl.wx
  let W := addMDinvMt nd (-1) B.Jcs hxs W
  let W := addSubDiag (-1) nd dl.cc W
  let W := addMDinvMt (nd + mc) (-1) B.Jds hxs W
  let W := addMDinvNt nd (nd + mc) (-1) B.Jcs hxs B.Jds W
  let W := addSubDiag (-1) (nd + mc) ddInv W
  addSubDiag (-1) (nd + mc) dl.cd W

/-- `hiopKKTLinSysCompressedMDSXYcYd::solveCompressed`, hiopKKTLinSysMDS.cpp:312-402. -/
def mdsSolve (B : MdsMats K ns nd mc m) (hxs : RVec K ns) (lin : (ℕ → K) → Option (ℕ → K))
    (buf : ℕ → K) : Solve3 K (ns + nd) mc m := fun rx ryc ryd =>
  let rx_s : RVec K ns := fun i => rx (Fin.castAdd nd i)
  let rx_d : RVec K nd := fun i => rx (Fin.natAdd ns i)
  let rxs := componentDiv rx_s hxs
  let dyc := timesVec B.Jcs 1 ryc (-1) rxs
  let ryd := timesVec B.Jds 1 ryd (-1) rxs
  let rhs := copyTo ryd (copyTo dyc (copyTo rx_d buf 0) nd) (nd + mc)
  match lin rhs with
  | none => none
  | some x =>
    let dxd := copyOut x 0 nd
    let dyc := copyOut x nd mc
    let dyd := copyOut x (nd + mc) m
    let dxs := componentDiv (transTimesVec B.Jds 1 (transTimesVec B.Jcs 1 rx_s (-1) dyc) (-1) dyd) hxs
    some (Fin.append dxs dxd, dyc, dyd)

/-! ## Specification -/

/-- The solver answers only with exact solutions of the symmetric system of size `N` whose upper
triangle is `W`. -/
def SymSolves (N : ℕ) (W : NMat K) (lin : (ℕ → K) → Option (ℕ → K)) : Prop :=
  ∀ rhs x, lin rhs = some x →
    ∀ r < N, ∑ c ∈ Finset.range N, W (min r c) (max r c) * x c = rhs r

/-- The matrices of a mixed dense-sparse problem in the variables (sparse, dense). -/
def MdsMats.toMats (B : MdsMats K ns nd mc m) : Mats K (ns + nd) mc m where
  H := fun i j => Fin.addCases (fun i => Fin.addCases (fun j => if i = j then B.hs i else 0)
      (fun _ => 0) j) (fun i => Fin.addCases (fun _ => 0) (fun j => B.Hd i j) j) i
  Jc := fun i => Fin.append (B.Jcs i) (B.Jcd i)
  Jd := fun i => Fin.append (B.Jds i) (B.Jdd i)

/-! ## Proofs -/

theorem wprod_comm {s : ℕ} (A : Matrix (Fin p) (Fin q) K) (D : RVec K q)
    (B : Matrix (Fin s) (Fin q) K) (i : Fin p) (j : Fin s) : wprod A D B i j = wprod B D A j i := by
  unfold wprod
  exact Finset.sum_congr rfl fun k _ => by ring

theorem at1_fin (v : RVec K p) (i : Fin p) : at1 v i = v i := by simp [at1]
theorem at1_add (v : RVec K p) (s : ℕ) (i : Fin p) : at1 v (s + i - s) = v i := by simp [at1]
theorem at1_out (v : RVec K p) (k : ℕ) (h : p ≤ k) : at1 v k = 0 := by
  simp [at1, Nat.not_lt.2 h]

theorem at2_fin (A : Matrix (Fin p) (Fin q) K) (i : Fin p) (j : Fin q) : at2 A i j = A i j := by
  simp [at2]
theorem at2_out1 (A : Matrix (Fin p) (Fin q) K) (i j : ℕ) (h : p ≤ i) : at2 A i j = 0 := by
  simp [at2, Nat.not_lt.2 h]
theorem at2_out2 (A : Matrix (Fin p) (Fin q) K) (i j : ℕ) (h : q ≤ j) : at2 A i j = 0 := by
  simp [at2, Nat.not_lt.2 h]

theorem copyOut_zero (x : ℕ → K) (i : Fin p) : copyOut x 0 p i = x i := by simp [copyOut]

theorem copyTo_in (v : RVec K p) (buf : ℕ → K) (st : ℕ) (i : Fin p) :
    copyTo v buf st (st + i) = v i := by
  simp [copyTo]

theorem copyTo_out (v : RVec K p) (buf : ℕ → K) (st k : ℕ) (h : k < st ∨ st + p ≤ k) :
    copyTo v buf st k = buf k := by
  unfold copyTo
  rw [dif_neg]
  omega

theorem sum_three (f : ℕ → K) (a b c : ℕ) : ∑ k ∈ Finset.range (a + b + c), f k
    = (∑ i : Fin a, f i) + (∑ i : Fin b, f (a + i)) + ∑ i : Fin c, f (a + b + i) := by
  rw [Finset.sum_range_add, Finset.sum_range_add, Finset.sum_range, Finset.sum_range,
    Finset.sum_range]

theorem pack3_rhs (rx : RVec K n) (ryc : RVec K mc) (ryd : RVec K m) (buf : ℕ → K) :
    (∀ i : Fin n, copyTo ryd (copyTo ryc (copyTo rx buf 0) n) (n + mc) i = rx i) ∧
    (∀ i : Fin mc, copyTo ryd (copyTo ryc (copyTo rx buf 0) n) (n + mc) (n + i) = ryc i) ∧
    (∀ i : Fin m, copyTo ryd (copyTo ryc (copyTo rx buf 0) n) (n + mc) (n + mc + i) = ryd i) := by
  refine ⟨fun i => ?_, fun i => ?_, fun i => ?_⟩
  · rw [copyTo_out _ _ _ _ (Or.inl (by omega)), copyTo_out _ _ _ _ (Or.inl (by omega))]
    have := copyTo_in rx buf 0 i
    rwa [Nat.zero_add] at this
  · rw [copyTo_out _ _ _ _ (Or.inl (by omega)), copyTo_in]
  · rw [copyTo_in]

/-- Block rows of a symmetric 3×3 block system stored in the upper triangle. -/
theorem symSolves_three (W : NMat K) (lin : (ℕ → K) → Option (ℕ → K))
    (h : SymSolves (n + mc + m) W lin) (rhs x : ℕ → K) (hx : lin rhs = some x)
    (A : Matrix (Fin n) (Fin n) K) (B : Matrix (Fin mc) (Fin n) K) (C : Matrix (Fin m) (Fin n) K)
    (D : Matrix (Fin mc) (Fin mc) K) (E : Matrix (Fin mc) (Fin m) K) (F : Matrix (Fin m) (Fin m) K)
    (hA : ∀ i j : Fin n, W (min i.val j.val) (max i.val j.val) = A i j)
    (hB : ∀ (i : Fin n) (j : Fin mc), W i (n + j) = B j i)
    (hC : ∀ (i : Fin n) (j : Fin m), W i (n + mc + j) = C j i)
    (hD : ∀ i j : Fin mc, W (min (n + i.val) (n + j.val)) (max (n + i.val) (n + j.val)) = D i j)
    (hE : ∀ (i : Fin mc) (j : Fin m), W (n + i) (n + mc + j) = E i j)
    (hF : ∀ i j : Fin m, W (min (n + mc + i.val) (n + mc + j.val))
      (max (n + mc + i.val) (n + mc + j.val)) = F i j) :
    (∀ i : Fin n, (∑ j, A i j * copyOut x 0 n j) + (∑ j, B j i * copyOut x n mc j)
      + ∑ j, C j i * copyOut x (n + mc) m j = rhs i) ∧
    (∀ i : Fin mc, (∑ j, B i j * copyOut x 0 n j) + (∑ j, D i j * copyOut x n mc j)
      + ∑ j, E i j * copyOut x (n + mc) m j = rhs (n + i)) ∧
    (∀ i : Fin m, (∑ j, C i j * copyOut x 0 n j) + (∑ j, E j i * copyOut x n mc j)
      + ∑ j, F i j * copyOut x (n + mc) m j = rhs (n + mc + i)) := by
  have e := h rhs x hx
  refine ⟨fun i => ?_, fun i => ?_, fun i => ?_⟩
  · rw [← e i (by omega), sum_three]
    congr 1
    · congr 1
      · exact Finset.sum_congr rfl fun j _ => by rw [hA, copyOut_zero]
      · refine Finset.sum_congr rfl fun j _ => ?_
        rw [min_eq_left (by omega), max_eq_right (by omega), hB]; rfl
    · refine Finset.sum_congr rfl fun j _ => ?_
      rw [min_eq_left (by omega), max_eq_right (by omega), hC]; rfl
  · rw [← e (n + i) (by omega), sum_three]
    congr 1
    · congr 1
      · refine Finset.sum_congr rfl fun j _ => ?_
        rw [min_eq_right (by omega), max_eq_left (by omega), hB, copyOut_zero]
      · exact Finset.sum_congr rfl fun j _ => by rw [hD]; rfl
    · refine Finset.sum_congr rfl fun j _ => ?_
      rw [min_eq_left (by omega), max_eq_right (by omega), hE]; rfl
  · rw [← e (n + mc + i) (by omega), sum_three]
    congr 1
    · congr 1
      · refine Finset.sum_congr rfl fun j _ => ?_
        rw [min_eq_right (by omega), max_eq_left (by omega), hC, copyOut_zero]
      · refine Finset.sum_congr rfl fun j _ => ?_
        rw [min_eq_right (by omega), max_eq_left (by omega), hE]; rfl
    · exact Finset.sum_congr rfl fun j _ => by rw [hF]; rfl

theorem sym_minmax {A : Matrix (Fin p) (Fin p) K} (hA : ∀ i j, A i j = A j i) (i j : Fin p) :
    at2 A (min i.val j.val) (max i.val j.val) = A i j := by
  rcases le_total i.val j.val with h | h
  · rw [min_eq_left h, max_eq_right h, at2_fin]
  · rw [min_eq_right h, max_eq_left h, at2_fin, hA]

theorem minmax_eq_iff (a b : ℕ) : min a b = max a b ↔ a = b := by
  constructor
  · intro h; omega
  · rintro rfl; simp

theorem add_minmax (s a b : ℕ) : min (s + a) (s + b) = s + min a b ∧
    max (s + a) (s + b) = s + max a b := by omega

/-- Evaluation of the assembled entries at a known block position. -/
macro "ents" : tactic => `(tactic| simp (disch := omega) only [if_pos, if_neg, at2_fin, at2_out1,
  at2_out2, at1_fin, at1_out, Nat.sub_zero, Nat.add_sub_cancel_left, Nat.zero_add, min_self,
  max_self])

section
variable [IsStrictOrderedRing K]

/-- What the dense (x, yc, yd) matrix really is: `delta_cd` shifted into the equality block. -/
theorem denseXYcYd_exact (M : Mats K n mc m) (dl : Deltas K n mc m) (dx : RVec K n)
    (ddInv : RVec K m) (lin : (ℕ → K) → Option (ℕ → K)) (buf : ℕ → K)
    (hH : ∀ i j, M.H i j = M.H j i)
    (hl : SymSolves (n + mc + m) (denseXYcYdMatrix M dl dx ddInv) lin) :
    Solves3 M (fun i => dx i + dl.wx i) (fun i => at1 dl.cd i)
      (fun i => ddInv i + at1 dl.cd (mc + i)) (pack3 lin buf) := by
  intro rx ryc ryd dx' dyc dyd h
  unfold pack3 at h
  simp only at h
  generalize hq : lin (copyTo ryd (copyTo ryc (copyTo rx buf 0) n) (n + mc)) = ans at h
  match ans, hq, h with
  | some x, hq, h =>
    simp only [Option.some.injEq, Prod.mk.injEq] at h
    obtain ⟨rfl, rfl, rfl⟩ := h
    obtain ⟨p1, p2, p3⟩ := pack3_rhs rx ryc ryd buf
    have key := symSolves_three _ lin hl _ x hq
      (fun i j => M.H i j + if i = j then dx i + dl.wx i else 0) M.Jc M.Jd
      (fun i j => if i = j then - at1 dl.cd i else 0) 0
      (fun i j => if i = j then - (ddInv i + at1 dl.cd (mc + i)) else 0)
      ?_ ?_ ?_ ?_ ?_ ?_
    · obtain ⟨k1, k2, k3⟩ := key
      refine ⟨fun i => ?_, fun i => ?_, fun i => ?_⟩
      · have := k1 i
        rw [p1] at this
        rw [← this]
        simp only [add_mul, Finset.sum_add_distrib, ite_mul, zero_mul, Finset.sum_ite_eq,
          Finset.mem_univ, if_true]
      · have := k2 i
        rw [p2] at this
        rw [← this]
        simp [ite_mul, sub_eq_add_neg]
      · have := k3 i
        rw [p3] at this
        rw [← this]
        simp [ite_mul, sub_eq_add_neg]
        ring
    · intro i j
      simp only [denseXYcYdMatrix, addUpperTri, transAdd, addSubDiag]
      by_cases hij : i = j
      · subst hij
        ents
        simp [add_assoc]
      · have : i.val ≠ j.val := fun e => hij (Fin.ext e)
        ents
        simp [sym_minmax hH]
    · intro i j
      simp only [denseXYcYdMatrix, addUpperTri, transAdd, addSubDiag]
      ents
      simp
    · intro i j
      simp only [denseXYcYdMatrix, addUpperTri, transAdd, addSubDiag]
      ents
      simp
    · intro i j
      simp only [denseXYcYdMatrix, addUpperTri, transAdd, addSubDiag]
      by_cases hij : i = j
      · subst hij
        ents
        simp
      · have : i.val ≠ j.val := fun e => hij (Fin.ext e)
        ents
        simp
    · intro i j
      simp only [denseXYcYdMatrix, addUpperTri, transAdd, addSubDiag]
      ents
      simp
    · intro i j
      simp only [denseXYcYdMatrix, addUpperTri, transAdd, addSubDiag]
      by_cases hij : i = j
      · subst hij
        ents
        rw [show n + mc + i.val - n = mc + i by omega]
        have h1 : n ≤ n + mc + i.val := by omega
        simp [h1]; ring
      · have : i.val ≠ j.val := fun e => hij (Fin.ext e)
        ents
        simp

/-- **C18, dense.** The dense formulation solves the requested system when there are no equality
constraints or no dual perturbation. -/
theorem C18_dense_partial (M : Mats K n mc m) (dl : Deltas K n mc m) (dx : RVec K n)
    (ddInv : RVec K m) (lin : (ℕ → K) → Option (ℕ → K)) (buf : ℕ → K)
    (hH : ∀ i j, M.H i j = M.H j i) (hcd : mc = 0 ∨ (∀ i, dl.cc i = 0) ∧ ∀ i, dl.cd i = 0)
    (hl : SymSolves (n + mc + m) (denseXYcYdMatrix M dl dx ddInv) lin) :
    Solves3 M (fun i => dx i + dl.wx i) dl.cc (fun i => ddInv i + dl.cd i) (pack3 lin buf) := by
  have h := denseXYcYd_exact M dl dx ddInv lin buf hH hl
  have e1 : (fun i : Fin mc => at1 dl.cd i) = dl.cc := by
    funext i
    rcases hcd with h0 | ⟨h1, h2⟩
    · exact absurd i.isLt (by omega)
    · simp [at1, h1, h2]
  have e2 : (fun i : Fin m => ddInv i + at1 dl.cd (mc + i)) = fun i => ddInv i + dl.cd i := by
    funext i
    rcases hcd with h0 | ⟨h1, h2⟩
    · subst h0; rw [Nat.zero_add, at1_fin]
    · simp [at1, h2]
  rw [e1, e2] at h
  exact h

/-- **C18, dense, deviation.** With equality and inequality constraints and dual perturbations the
matrix holds the wrong diagonal: whenever the exact solver answers a right-hand side, the residual
of the *requested* equality row is off by `(delta_cd - delta_cc)*dyc` and that of the inequality
row by `-delta_cd*dyd`. -/
theorem C18_dense_wrong_diagonal (M : Mats K 1 1 1) (dl : Deltas K 1 1 1) (dx ddInv : RVec K 1)
    (lin : (ℕ → K) → Option (ℕ → K)) (buf : ℕ → K)
    (hl : SymSolves 3 (denseXYcYdMatrix M dl dx ddInv) lin)
    (rx ryc ryd dx' dyc dyd : RVec K 1) (h : pack3 lin buf rx ryc ryd = some (dx', dyc, dyd)) :
    (M.Jc 0 0 * dx' 0 - dl.cc 0 * dyc 0) - ryc 0 = (dl.cd 0 - dl.cc 0) * dyc 0 ∧
    (M.Jd 0 0 * dx' 0 - (ddInv 0 + dl.cd 0) * dyd 0) - ryd 0 = - dl.cd 0 * dyd 0 := by
  have e := denseXYcYd_exact M dl dx ddInv lin buf (fun i j => by fin_cases i; fin_cases j; rfl) hl
    _ _ _ _ _ _ h
  have e1 := e.2.1 0
  have e2 := e.2.2 0
  simp [at1] at e1 e2
  constructor
  · linear_combination e1
  · linear_combination e2

/-- **C18, mixed dense-sparse.** The Schur-complement system assembled for mixed dense-sparse
problems, together with the recovery of the sparse variables, yields exact solutions of the
(x, yc, yd) system of the whole problem. -/
theorem C18_mds (B : MdsMats K ns nd mc m) (dl : Deltas K (ns + nd) mc m) (dx : RVec K (ns + nd))
    (ddInv : RVec K m) (lin : (ℕ → K) → Option (ℕ → K)) (buf : ℕ → K)
    (hH : ∀ i j, B.Hd i j = B.Hd j i)
    (hne : ∀ i : Fin ns, dx (Fin.castAdd nd i) + dl.wx (Fin.castAdd nd i) + B.hs i ≠ 0)
    (hl : SymSolves (nd + mc + m) (mdsMatrix B dl dx ddInv) lin) :
    Solves3 B.toMats (fun i => dx i + dl.wx i) dl.cc (fun i => ddInv i + dl.cd i)
      (mdsSolve B (mdsHxs B dx dl.wx) lin buf) := by
  intro rx ryc ryd dx' dyc dyd h
  unfold mdsSolve at h
  simp only at h
  set hxs := mdsHxs B dx dl.wx with hhxs
  have hx0 : ∀ i, hxs i ≠ 0 := fun i => by
    have := hne i; simp only [hhxs, mdsHxs, one_mul]; exact this
  set rxs : RVec K ns := componentDiv (fun i => rx (Fin.castAdd nd i)) hxs with hrxs
  generalize hq : lin (copyTo (timesVec B.Jds 1 ryd (-1) rxs)
    (copyTo (timesVec B.Jcs 1 ryc (-1) rxs) (copyTo (fun i => rx (Fin.natAdd ns i)) buf 0) nd)
    (nd + mc)) = ans at h
  match ans, hq, h with
  | some x, hq, h =>
    simp only [Option.some.injEq, Prod.mk.injEq] at h
    obtain ⟨rfl, rfl, rfl⟩ := h
    obtain ⟨p1, p2, p3⟩ := pack3_rhs (fun i => rx (Fin.natAdd ns i))
      (timesVec B.Jcs 1 ryc (-1) rxs) (timesVec B.Jds 1 ryd (-1) rxs) buf
    have key := symSolves_three _ lin hl _ x hq
      (fun i j => B.Hd i j + if i = j then dx (Fin.natAdd ns i) + dl.wx (Fin.natAdd ns i) else 0)
      B.Jcd B.Jdd
      (fun i j => - wprod B.Jcs hxs B.Jcs i j - if i = j then dl.cc i else 0)
      (fun i j => - wprod B.Jcs hxs B.Jds i j)
      (fun i j => - wprod B.Jds hxs B.Jds i j
        - if i = j then ddInv i + dl.cd i else 0)
      ?_ ?_ ?_ ?_ ?_ ?_
    · obtain ⟨k1, k2, k3⟩ := key
      set yc := copyOut x nd mc
      set yd := copyOut x (nd + mc) m
      set xd := copyOut x 0 nd
      have hdxs : ∀ j, componentDiv (transTimesVec B.Jds 1 (transTimesVec B.Jcs 1
          (fun i => rx (Fin.castAdd nd i)) (-1) yc) (-1) yd) hxs j
          = (rx (Fin.castAdd nd j) - (∑ k, B.Jcs k j * yc k) - ∑ k, B.Jds k j * yd k) / hxs j := by
        intro j
        simp only [componentDiv, transTimesVec_apply]
        congr 1; ring
      have swap : ∀ {a s : ℕ} (A : Matrix (Fin a) (Fin ns) K) (C : Matrix (Fin s) (Fin ns) K)
          (y : RVec K s) (i : Fin a),
          ∑ k, wprod A hxs C i k * y k = ∑ j, A i j * (∑ k, C k j * y k) / hxs j := by
        intro a s A C y i
        simp only [wprod, Finset.sum_mul]
        rw [Finset.sum_comm]
        refine Finset.sum_congr rfl fun j _ => ?_
        rw [Finset.mul_sum, Finset.sum_div]
        exact Finset.sum_congr rfl fun k _ => by ring
      have swap' : ∀ {a s : ℕ} (A : Matrix (Fin a) (Fin ns) K) (C : Matrix (Fin s) (Fin ns) K)
          (y : RVec K s) (i : Fin a),
          ∑ k, wprod C hxs A k i * y k = ∑ j, A i j * (∑ k, C k j * y k) / hxs j := by
        intro a s A C y i
        rw [← swap]
        refine Finset.sum_congr rfl fun k _ => ?_
        congr 1
        exact wprod_comm _ _ _ _ _
      have hJ : ∀ {a : ℕ} (A : Matrix (Fin a) (Fin ns) K) (i : Fin a),
          ∑ j, A i j * ((rx (Fin.castAdd nd j) - (∑ k, B.Jcs k j * yc k)
            - ∑ k, B.Jds k j * yd k) / hxs j)
          = (∑ j, A i j * rxs j) - (∑ j, A i j * (∑ k, B.Jcs k j * yc k) / hxs j)
            - ∑ j, A i j * (∑ k, B.Jds k j * yd k) / hxs j := by
        intro a A i
        rw [← Finset.sum_sub_distrib, ← Finset.sum_sub_distrib]
        exact Finset.sum_congr rfl fun j _ => by rw [hrxs]; simp only [componentDiv]; ring
      refine ⟨fun i => ?_, fun i => ?_, fun i => ?_⟩
      · refine Fin.addCases (fun i => ?_) (fun i => ?_) i
        · simp only [MdsMats.toMats, Fin.sum_univ_add, Fin.append_left, Fin.append_right,
            Fin.addCases_left, Fin.addCases_right, zero_mul, Finset.sum_const_zero, add_zero,
            ite_mul, Finset.sum_ite_eq, Finset.mem_univ, if_true, hdxs]
          have : hxs i = dx (Fin.castAdd nd i) + dl.wx (Fin.castAdd nd i) + B.hs i := by
            simp [hhxs, mdsHxs]
          rw [← add_mul, show B.hs i + (dx (Fin.castAdd nd i) + dl.wx (Fin.castAdd nd i)) = hxs i by
            rw [this]; ring, mul_div_cancel₀ _ (hx0 i)]
          ring
        · have := k1 i
          rw [p1] at this
          simp only [MdsMats.toMats, Fin.sum_univ_add, Fin.append_left, Fin.append_right,
            Fin.addCases_left, Fin.addCases_right, zero_mul, Finset.sum_const_zero, zero_add]
          rw [← this]
          simp only [add_mul, Finset.sum_add_distrib, ite_mul, zero_mul, Finset.sum_ite_eq,
            Finset.mem_univ, if_true]
      · have := k2 i
        rw [p2, timesVec_apply] at this
        simp only [MdsMats.toMats, Fin.sum_univ_add, Fin.append_left, Fin.append_right, hdxs]
        rw [hJ]
        simp only [sub_mul, neg_mul, Finset.sum_sub_distrib, Finset.sum_neg_distrib, ite_mul,
          zero_mul, Finset.sum_ite_eq, Finset.mem_univ, if_true] at this
        rw [swap, swap] at this
        linear_combination this
      · have := k3 i
        rw [p3, timesVec_apply] at this
        simp only [MdsMats.toMats, Fin.sum_univ_add, Fin.append_left, Fin.append_right, hdxs]
        rw [hJ]
        simp only [sub_mul, neg_mul, Finset.sum_sub_distrib, Finset.sum_neg_distrib, ite_mul,
          zero_mul, Finset.sum_ite_eq, Finset.mem_univ, if_true] at this
        rw [swap, swap'] at this
        linear_combination this
    · intro i j
      simp only [mdsMatrix, addUpperTri, transAdd, addSubDiag, addSubDiagFrom, addMDinvMt,
        addMDinvNt, ← hhxs]
      by_cases hij : i = j
      · subst hij
        have s1 : at1 dx (i.val + ns) = dx (Fin.natAdd ns i) := by
          rw [← at1_fin dx (Fin.natAdd ns i)]; simp [Nat.add_comm]
        have s2 : at1 dl.wx (i.val + ns) = dl.wx (Fin.natAdd ns i) := by
          rw [← at1_fin dl.wx (Fin.natAdd ns i)]; simp [Nat.add_comm]
        ents
        simp [s1, s2, add_assoc]
      · have : i.val ≠ j.val := fun e => hij (Fin.ext e)
        ents
        simp [sym_minmax hH]
    · intro i j
      simp only [mdsMatrix, addUpperTri, transAdd, addSubDiag, addSubDiagFrom, addMDinvMt,
        addMDinvNt, ← hhxs]
      ents
      simp
    · intro i j
      simp only [mdsMatrix, addUpperTri, transAdd, addSubDiag, addSubDiagFrom, addMDinvMt,
        addMDinvNt, ← hhxs]
      ents
      simp
    · intro i j
      simp only [mdsMatrix, addUpperTri, transAdd, addSubDiag, addSubDiagFrom, addMDinvMt,
        addMDinvNt, ← hhxs]
      by_cases hij : i = j
      · subst hij
        ents
        simp [sub_eq_add_neg]
      · have : i.val ≠ j.val := fun e => hij (Fin.ext e)
        obtain ⟨m1, m2⟩ := add_minmax nd i.val j.val
        rw [m1, m2]
        ents
        rw [sym_minmax (fun i j => wprod_comm _ _ _ _ _)]
        simp
    · intro i j
      simp only [mdsMatrix, addUpperTri, transAdd, addSubDiag, addSubDiagFrom, addMDinvMt,
        addMDinvNt, ← hhxs]
      ents
      simp
    · intro i j
      simp only [mdsMatrix, addUpperTri, transAdd, addSubDiag, addSubDiagFrom, addMDinvMt,
        addMDinvNt, ← hhxs]
      by_cases hij : i = j
      · subst hij
        ents
        simp; ring
      · have : i.val ≠ j.val := fun e => hij (Fin.ext e)
        obtain ⟨m1, m2⟩ := add_minmax (nd + mc) i.val j.val
        rw [m1, m2]
        ents
        rw [sym_minmax (fun i j => wprod_comm _ _ _ _ _)]
        simp
end

/-! ## Concrete instances -/

/-- Inverse of the dense (x, yc, yd) matrix of the instance,
`[3 1 1; 1 -1 0; 1 0 -1/2]`. -/
def exLin3 : (ℕ → ℚ) → Option (ℕ → ℚ) := fun r => some fun k =>
  if k = 0 then r 0 / 6 + r 1 / 6 + r 2 / 3
  else if k = 1 then r 0 / 6 - 5 * r 1 / 6 + r 2 / 3
  else r 0 / 3 + r 1 / 3 - 4 * r 2 / 3

theorem exLin3_solves :
    SymSolves 3 (denseXYcYdMatrix exM exDl (fun _ => 1) (fun _ => 1 / 2)) exLin3 := by
  intro rhs x h r hr
  simp only [exLin3, Option.some.injEq] at h
  subst h
  interval_cases r <;>
    simp [Finset.sum_range_succ, denseXYcYdMatrix, addUpperTri, transAdd, addSubDiag, at1, at2,
      exM, exDl] <;> ring

/-- The exact description applies to the instance. -/
example : Solves3 exM (fun i => 1 + exDl.wx i) (fun i => at1 exDl.cd i)
    (fun i => 1 / 2 + at1 exDl.cd (1 + i)) (pack3 exLin3 fun _ => 0) :=
  denseXYcYd_exact exM exDl (fun _ => 1) (fun _ => 1 / 2) exLin3 _ (fun _ _ => rfl) exLin3_solves

/-- **C18, dense, refuted in general.** For a problem with an equality, an inequality and a dual
perturbation, an exact solver of the assembled matrix does not solve the requested system. -/
theorem C18_dense_refuted : ∃ (M : Mats ℚ 1 1 1) (dl : Deltas ℚ 1 1 1) (dx ddInv : RVec ℚ 1)
    (lin : (ℕ → ℚ) → Option (ℕ → ℚ)), (∀ i, 0 < dl.cc i ∧ 0 < dl.cd i) ∧
    SymSolves 3 (denseXYcYdMatrix M dl dx ddInv) lin ∧
    ¬ Solves3 M (fun i => dx i + dl.wx i) dl.cc (fun i => ddInv i + dl.cd i)
      (pack3 lin fun _ => 0) := by
  refine ⟨exM, exDl, fun _ => 1, fun _ => 1 / 2, exLin3, fun i => by simp [exDl], exLin3_solves, ?_⟩
  intro h
  have := (h (fun _ => 6) (fun _ => 0) (fun _ => 0) _ _ _ rfl).2.2 0
  simp [exLin3, copyOut, copyTo, exM, exDl] at this
  norm_num at this

/-- A mixed dense-sparse problem with one variable of each kind. -/
def exMds : MdsMats ℚ 1 1 1 1 :=
  ⟨fun _ => 1, fun _ _ => 1, fun _ _ => 1, fun _ _ => 1, fun _ _ => 1, fun _ _ => 1⟩

/-- Inverse of its Schur complement `[3 1 1; 1 -4/3 -1/3; 1 -1/3 -11/6]`. -/
def exLinMds : (ℕ → ℚ) → Option (ℕ → ℚ) := fun r => some fun k =>
  if k = 0 then 14 * r 0 / 57 + 3 * r 1 / 19 + 2 * r 2 / 19
  else if k = 1 then 3 * r 0 / 19 - 13 * r 1 / 19 + 4 * r 2 / 19
  else 2 * r 0 / 19 + 4 * r 1 / 19 - 10 * r 2 / 19

/-- C18 for mixed dense-sparse problems applies to the instance. -/
example : Solves3 exMds.toMats (fun _ => (1 : ℚ) + 1) (fun _ => 1) (fun _ => 1 / 2 + 1)
    (mdsSolve exMds (mdsHxs exMds (fun _ => 1) (fun _ => 1)) exLinMds fun _ => 0) := by
  refine C18_mds exMds ⟨fun _ => 1, fun _ => 1, fun _ => 1, fun _ => 1⟩ (fun _ => 1)
    (fun _ => 1 / 2) exLinMds _ (fun _ _ => rfl) (fun i => by simp [exMds]; norm_num) ?_
  intro rhs x h r hr
  simp only [exLinMds, Option.some.injEq] at h
  subst h
  interval_cases r <;>
    simp [Finset.sum_range_succ, mdsMatrix, addUpperTri, transAdd, addSubDiag, addSubDiagFrom,
      addMDinvMt, addMDinvNt, wprod, mdsHxs, at1, at2, exMds] <;> ring

end Hiop.Kkt
