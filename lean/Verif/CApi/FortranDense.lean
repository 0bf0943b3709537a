import Verif.CApi.Fortran

/-!
# C66: dense problems given through the Fortran interface

Models `src/Interface/hiopFortranInterface.c:351-534` (dense problems) on top of the C interface (`Verif/CApi/Model`).
-/

namespace Hiop.CApi

variable {σ K : Type}

/-! ## Model -/

/-- A call of a Fortran procedure of a dense problem. Code: hiopFortranInterface.h:69-76. -/
inductive FDReq (K : Type)
  | f (n : ℤ) (x : List K) (newX : ℤ)
  | grad (n : ℤ) (x : List K) (newX : ℤ)
  | c (n m : ℤ) (x : List K) (newX : ℤ)
  | jac (n m : ℤ) (x : List K) (newX : ℤ)

/-- The four procedures of the Fortran program; they return nothing, and write one array. Code: hiopFortranInterface.h:69-76. -/
abbrev FDUser (σ K : Type) := σ → FDReq K → σ × List K

/-- `FDenseProb` without the pointers, hiopFortranInterface.h:145-159: sizes and the copies of the arrays made by
`hiopdenseprob`, hiopFortranInterface.c:448-478. -/
structure FDProb (K : Type) where
  n : ℤ
  m : ℤ
  xlow : List K
  xupp : List K
  clow : List K
  cupp : List K
  x0 : List K

/-- `hiopdenseprob`, hiopFortranInterface.c:448-478: the loops copy `n` entries of the bounds of the variables and of
the starting point and `m` entries of the bounds of the constraints. -/
def denseProb (n m : ℕ) (xlow xupp clow cupp x0 : ℕ → K) : FDProb K :=
  let cp := fun (k : ℕ) (a : ℕ → K) => (List.range k).map a
  ⟨n, m, cp n xlow, cp n xupp, cp m clow, cp m cupp, cp n x0⟩

/-- The wrappers for dense problems, hiopFortranInterface.c:351-434, as a C user: sizes 360-366, bounds 368-388,
starting point 351-358, procedures 390-434. The sizes in the call are not compared with those given at creation;
`eval_c_dense_wrapper` passes the `n` given at creation (404), the others the one in the call. `cHiopDenseProblem` has
no functions for blocks and Hessian (hiopInterface.h:151-176): these are never called, and answered with nothing here. -/
def denseWrapper (D : FDProb K) (F : FDUser σ K) (s : σ) : CReq K Unit Unit → σ × ℤ × Out K
  | .startPoint _ => (s, 0, { vals := D.x0 })
  | .probSizes => (s, 0, { ints := [D.n, D.m] })
  | .varsInfo _ => (s, 0, { vals := D.xlow, upp := D.xupp })
  | .consInfo _ => (s, 0, { vals := D.clow, upp := D.cupp })
  | .evalF n x b => let r := F s (.f n x b); (r.1, 0, { vals := r.2 })
  | .cons _ m x b => let r := F s (.c D.n m x b); (r.1, 0, { vals := r.2 })
  | .evalGrad n x b => let r := F s (.grad n x b); (r.1, 0, { vals := r.2 })
  | .jac n m x b _ => let r := F s (.jac n m x b); (r.1, 0, { vals := r.2 })
  | .blocksInfo => (s, 0, {})
  | .hess .. => (s, 0, {})

/-- Entry `(i, j)` of the solver's dense matrix with `n` columns whose storage is the array: rows one after the other.
Code: hiopMatrixDenseRowMajor.cpp:90-93. -/
def rowMajor (n : ℕ) (a : List K) (i j : ℕ) : Option K := a[i * n + j]?

/-! ## Specification -/

/-- The storage of a Fortran array `A(p, q)`: columns one after the other; indices start at 0 here. -/
def fortranArray (p q : ℕ) (A : ℕ → ℕ → K) : List K := (List.range (p * q)).map fun k => A (k % p) (k / p)

/-- What a Fortran program is promised: its procedures get the arguments of the call, the data are those given at
creation, nothing fails. -/
def fortranSees (D : FDProb K) (F : FDUser σ K) (s : σ) : Req K Unit Unit → σ × Bool × Out K
  | .probSizes => (s, true, { ints := [D.n, D.m] })
  | .startPoint _ => (s, true, { vals := D.x0 })
  | .varsInfo n => (s, true, { vals := D.xlow, upp := D.xupp, nonlinear := List.replicate n.toNat true })
  | .consInfo m => (s, true, { vals := D.clow, upp := D.cupp, nonlinear := List.replicate m.toNat true })
  | .evalF n x b => let r := F s (.f n x (if b then 1 else 0)); (r.1, true, { vals := r.2 })
  | .evalGrad n x b => let r := F s (.grad n x (if b then 1 else 0)); (r.1, true, { vals := r.2 })
  | .consAll n m x b => let r := F s (.c n m x (if b then 1 else 0)); (r.1, true, { vals := r.2 })
  | .jacAll n m x b _ => let r := F s (.jac n m x (if b then 1 else 0)); (r.1, true, { vals := r.2 })
  | .consSome .. => (s, false, {})
  | .jacSome .. => (s, false, {})
  | .blocksInfo => (s, true, {})
  | .hess .. => (s, true, {})

/-- The solver asks for the constraints of a problem with the number of variables it was told. -/
def AsksN (D : FDProb K) : Req K Unit Unit → Prop
  | .consAll n _ _ _ => n = D.n
  | _ => True

/-! ## Theorems -/

/-- The problem the solver is told about is the one given at creation: sizes, and entry by entry the bounds and the
starting point, whatever sizes the call names. -/
theorem C66_fortran_dense_data (n m : ℕ) (xlow xupp clow cupp x0 : ℕ → K) (F : FDUser σ K) (s : σ) (k : ℤ) :
    let W := denseWrapper (denseProb n m xlow xupp clow cupp x0) F s
    (W .probSizes).2.2.ints = [(n : ℤ), (m : ℤ)] ∧
    (∀ i, (W (.startPoint k)).2.2.vals[i]? = if i < n then some (x0 i) else none) ∧
    (∀ i, (W (.varsInfo k)).2.2.vals[i]? = if i < n then some (xlow i) else none) ∧
    (∀ i, (W (.varsInfo k)).2.2.upp[i]? = if i < n then some (xupp i) else none) ∧
    (∀ i, (W (.consInfo k)).2.2.vals[i]? = if i < m then some (clow i) else none) ∧
    (∀ i, (W (.consInfo k)).2.2.upp[i]? = if i < m then some (cupp i) else none) := by
  have key : ∀ (l : ℕ) (a : ℕ → K) i, ((List.range l).map a)[i]? = if i < l then some (a i) else none := by
    intro l a i
    by_cases h : i < l
    · simp [h]
    · simp [h]
  exact ⟨rfl, key _ _, key _ _, key _ _, key _ _, key _ _⟩

/-- In every run, whatever the solver makes of the answers: if the procedures for the objective and its gradient do not
use `new_x`, the Fortran program and the solver see what they were promised. -/
theorem C66_fortran_dense_transparent_partial (D : FDProb K) (F : FDUser σ K)
    (hF : ∀ s n x a b, F s (.f n x a) = F s (.f n x b) ∧ F s (.grad n x a) = F s (.grad n x b))
    (next : List (Bool × Out K) → Req K Unit Unit) (hn : ∀ l, AsksN D (next l)) (s : σ) (t : ℕ) :
    runWith (cpp (denseWrapper D F)) next s t = runWith (fortranSees D F) next s t := by
  have key : ∀ s r, AsksN D r → cpp (denseWrapper D F) s r = fortranSees D F s r := by
    intro s r hr
    cases r with
    | evalF n x b => simp only [cpp, denseWrapper, fortranSees]; rw [(hF s n x 0 _).1]
    | evalGrad n x b => simp only [cpp, denseWrapper, fortranSees]; rw [(hF s n x 0 _).2]
    | consAll n m x b =>
      obtain rfl : n = D.n := hr
      cases b <;> rfl
    | jacAll n m x b q => cases b <;> rfl
    | _ => rfl
  induction t with
  | zero => rfl
  | succ t ih => simp only [runWith, ih, key _ _ (hn _)]

/-- A procedure for the objective that uses `new_x` is told 0 at a new point: it answers for the old one. -/
theorem C66_fortran_dense_new_x_refuted : ∃ (D : FDProb ℤ) (F : FDUser (List ℤ) ℤ) (x : List ℤ) (s : List ℤ),
    (fortranSees D F s (.evalF 2 x true)).2.2.vals = [x.sum] ∧
      (cpp (denseWrapper D F) s (.evalF 2 x true)).2.2.vals ≠ [x.sum] :=
  ⟨denseProb 2 0 0 0 0 0 0, fun s q => match q with
      | .f _ x b => if b = 0 then (s, [s.sum]) else (x, [x.sum])
      | _ => (s, []), [3, 4], [1, 1], by decide, by decide⟩

theorem fortranArray_get (p q : ℕ) (A : ℕ → ℕ → K) {k : ℕ} (h : k < p * q) :
    (fortranArray p q A)[k]? = some (A (k % p) (k / p)) := by
  simp [fortranArray, h]

/-- The Jacobian the solver works with after `eval_Jac_cons`: if the procedure declares its output `A(N, M)` and stores
the derivative of constraint `i` by variable `j` in `A(j, i)`, entry `(i, j)` of the solver's matrix is that derivative,
for all `i` and `j`. -/
theorem C66_fortran_dense_jacobian (D : FDProb K) (F : FDUser σ K) (n m : ℕ) (J : List K → ℕ → ℕ → K)
    (hF : ∀ s x b, (F s (.jac n m x b)).2 = fortranArray n m fun j i => J x i j)
    (s : σ) (x : List K) (b : Bool) {i j : ℕ} (hi : i < m) (hj : j < n) :
    rowMajor n (cpp (denseWrapper D F) s (.jacAll n m x b ())).2.2.vals i j = some (J x i j) := by
  have h1 : i * n + j < n * m := by
    calc i * n + j < i * n + n := by omega
      _ = n * (i + 1) := by ring
      _ ≤ n * m := Nat.mul_le_mul_left n hi
  show (F s (.jac n m x (ofBool b))).2[i * n + j]? = _
  rw [hF, fortranArray_get n m _ h1]
  have h2 : (i * n + j) % n = j := by
    rw [Nat.mul_comm, Nat.mul_add_mod, Nat.mod_eq_of_lt hj]
  have h3 : (i * n + j) / n = i := by
    rw [Nat.mul_comm, Nat.mul_add_div (by omega), Nat.div_eq_of_lt hj, Nat.add_zero]
  rw [h2, h3]

/-- With the natural declaration `A(M, N)` the solver works with another matrix: for every numbers of variables and
constraints greater than one some Jacobian is not the one the solver sees. -/
theorem C66_fortran_dense_layout_refuted (n m : ℕ) (hn : 2 ≤ n) (hm : 2 ≤ m) :
    ∃ J : ℕ → ℕ → ℤ, rowMajor n (fortranArray m n J) 0 1 ≠ some (J 0 1) := by
  refine ⟨fun i j => if i = 0 ∧ j = 1 then 1 else 0, ?_⟩
  have h : 1 < m * n := by nlinarith
  simp only [rowMajor, Nat.zero_mul, Nat.zero_add]
  rw [fortranArray_get m n _ h, Nat.mod_eq_of_lt (by omega : 1 < m)]
  simp

/-- Two variables, three constraints `x1 + 2 x2`, `3 x1 x2`, `x2`. -/
def demoDense : FDUser ℕ ℤ := fun s q =>
  match q with
  | .f _ x _ => (s + 1, [x.sum])
  | .grad _ x _ => (s + 1, x.map fun _ => 1)
  | .c _ _ x _ => (s + 1, [x.getD 0 0 + 2 * x.getD 1 0, 3 * x.getD 0 0 * x.getD 1 0, x.getD 1 0])
  | .jac _ _ x _ => (s + 1, fortranArray 2 3 fun j i =>
      if i = 0 then (if j = 0 then 1 else 2) else if i = 1 then (if j = 0 then 3 * x.getD 1 0 else 3 * x.getD 0 0)
      else if j = 0 then 0 else 1)

/-- The hypotheses are met, and the answers of a run with three calls. -/
example : (∀ s n x a b, demoDense s (.f n x a) = demoDense s (.f n x b) ∧
      demoDense s (.grad n x a) = demoDense s (.grad n x b)) ∧
    (runWith (cpp (denseWrapper (denseProb 2 3 0 5 0 1 2) demoDense))
      (fun l => if l.length = 0 then .jacAll 2 3 [4, 5] true () else if l.length = 1 then .consAll 2 3 [4, 5] false
        else .varsInfo 2) 0 3).2.map (fun r => (r.2.vals, r.2.upp)) =
      [([0, 0], [5, 5]), ([14, 60, 5], []), ([1, 2, 15, 12, 0, 1], [])] :=
  ⟨fun _ _ _ _ _ => ⟨rfl, rfl⟩, by decide⟩

example : rowMajor 2 (cpp (denseWrapper (denseProb 2 3 0 5 0 1 2) demoDense) 0
    (.jacAll 2 3 [4, 5] true ())).2.2.vals 1 0 = some 15 := by decide

end Hiop.CApi
