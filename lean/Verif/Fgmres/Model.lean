import Mathlib.Analysis.Real.Sqrt
import Mathlib.Data.Matrix.Mul

/-!
# The inner iterative refinement (FGMRES) of the ReSolve linear solver

`IterativeRefinement::fgmres` and `GramSchmidt` (ReSolve/IterativeRefinement.cpp:250-774) and the reduction kernel
of ReSolve/KrylovSolverKernels.cu. `double` is modelled by ℝ (exact arithmetic). The CUDA calls are modelled by what
they compute: `cublasDdot`, `cublasDscal`, `cublasDaxpy`, `cublasDgemv`, `cublasDgemm`, `cusparseSpMV`;
`cusolverRfSolve` is an arbitrary function that may even differ from call to call (an inexact factorization).
Calls whose status is not looked at are taken to succeed.
-/

namespace Hiop.Fgmres

noncomputable section

/-- Vectors of length `n_`. No counterpart in the code: used only to state and run the model. -/
abbrev Vec (n : ℕ) := Fin n → ℝ

/-- `ir_inner_gs_scheme` (IterativeRefinement.cpp:443-465: any other string is "mgs"). -/
inductive Orth | mgs | cgs2 | twoSynch | pm
  deriving DecidableEq

/-- IterativeRefinement.hpp:18. -/
def EPSILON : ℝ := 1 / 10 ^ 18
/-- IterativeRefinement.hpp:19. -/
def EPSMAC : ℝ := 1 / 10 ^ 16

/-- The members of `IterativeRefinement` that do not change during a call (IterativeRefinement.hpp:96-110). `lu k` is
what `cusolverRfSolve` does in iteration `k`; `dbg`: the build has assertions. -/
structure Cfg (n : ℕ) where
  A : Matrix (Fin n) (Fin n) ℝ
  lu : ℕ → Vec n → Vec n
  restart : ℕ
  maxit : ℕ
  tol : ℝ
  cond : ℕ
  orth : Orth
  dbg : Bool

/-- The work arrays (IterativeRefinement.hpp:88-90, 124-141); they keep what earlier calls left. Entry `(i, j)` of
`H` and `L` is `h_H_[i*(restart_+1)+j]`, `h_L_[i*(restart_+1)+j]` (always `j ≤ restart_`); vector `i` of `V` and `Z` is
`d_V_[i*n_]`, `d_Z_[i*n_]`. -/
structure Mem (n : ℕ) where
  V : ℕ → Vec n
  Z : ℕ → Vec n
  H : ℕ → ℕ → ℝ
  L : ℕ → ℕ → ℝ
  c : ℕ → ℝ
  s : ℕ → ℝ
  rs : ℕ → ℝ
  rv : ℕ → ℝ
  aux : ℕ → ℝ

variable {n : ℕ}

/-- Assignment to an array element. Code: as in IterativeRefinement.cpp:311, IterativeRefinement.cpp:348. -/
def set1 {α : Type*} (f : ℕ → α) (i : ℕ) (v : α) : ℕ → α := fun j => if j = i then v else f j

/-- Assignment to an element of a two-dimensional array. Code: as in IterativeRefinement.cpp:351. -/
def set2 (f : ℕ → ℕ → ℝ) (i j : ℕ) (v : ℝ) : ℕ → ℕ → ℝ := set1 f i (set1 (f i) j v)

/-- A copy of `i+1` elements into an array (`cudaMemcpy` of `(i+1)*sizeof(double)`). Code: IterativeRefinement.cpp:526, IterativeRefinement.cpp:557. -/
def fill (f : ℕ → ℝ) (i : ℕ) (g : ℕ → ℝ) : ℕ → ℝ := fun j => if j ≤ i then g j else f j

/-! ### Orthogonalization -/

/-- One pass of the loop of "mgs" (IterativeRefinement.cpp:470-484). -/
def mgsStep (i : ℕ) (m : Mem n) (j : ℕ) : Mem n :=
  let t := m.V j ⬝ᵥ m.V (i + 1)
  { m with H := set2 m.H i j t, V := set1 m.V (i + 1) (m.V (i + 1) + (t * -1) • m.V j) }

/-- The loop of "mgs" (IterativeRefinement.cpp:470-484). -/
def mgs (i : ℕ) (m : Mem n) : Mem n := (List.range (i + 1)).foldl (mgsStep i) m

/-- `V(:,i+1) -= V(:,0:i) * h` (`cublasDgemv` at IterativeRefinement.cpp:513-524 and 541-552, `mass_axpy` or
`cublasDgemm` at lines 618-637 and 719-737). -/
def subtract (i : ℕ) (h : ℕ → ℝ) (m : Mem n) : Mem n :=
  { m with V := set1 m.V (i + 1) (m.V (i + 1) - ∑ j ∈ Finset.range (i + 1), h j • m.V j) }

/-- The two passes of "cgs2" (IterativeRefinement.cpp:501-561). -/
def cgs2 (i : ℕ) (m : Mem n) : Mem n :=
  let h1 : ℕ → ℝ := fun j => m.V j ⬝ᵥ m.V (i + 1)
  let m1 := { subtract i h1 m with aux := fill m.aux i h1 }
  let h2 : ℕ → ℝ := fun j => m1.V j ⬝ᵥ m1.V (i + 1)
  let m2 := subtract i h2 m1
  { m2 with H := set1 m2.H i (fill (m2.H i) i fun j => h2 j + m2.aux j) }

/-- A pass of a triangular solve `h_j = r_j - Σ_{k<j} L_{jk} h_k` (IterativeRefinement.cpp:604-611, 683-690). -/
def triStep (L : ℕ → ℕ → ℝ) (r : ℕ → ℝ) (h : ℕ → ℝ) (j : ℕ) : ℕ → ℝ :=
  let h' := set1 h j (r j)
  set1 h' j (h' j - ∑ k ∈ Finset.range j, L j k * h' k)

/-- A triangular solve with rows `0..i` (IterativeRefinement.cpp:604-611, 683-690, 703-710). -/
def tri (L : ℕ → ℕ → ℝ) (r : ℕ → ℝ) (i : ℕ) (h : ℕ → ℝ) : ℕ → ℝ := (List.range (i + 1)).foldl (triStep L r) h

/-- The common part of the two-synchronization schemes: inner products, row `i` of `L`, first triangular solve
(IterativeRefinement.cpp:572-611 and 651-690). -/
def lowSynch (i : ℕ) (m : Mem n) : Mem n :=
  let L := set1 m.L i (fill (m.L i) i fun j => m.V j ⬝ᵥ m.V i)
  let rv := fill m.rv i fun j => m.V j ⬝ᵥ m.V (i + 1)
  { m with L := L, rv := rv, H := set1 m.H i (tri L rv i (fill (m.H i) i fun _ => 0)) }

/-- "mgs_two_synch" (IterativeRefinement.cpp:572-637). -/
def twoSynch (i : ℕ) (m : Mem n) : Mem n :=
  let m1 := lowSynch i m
  subtract i (m1.H i) m1

/-- "mgs_pm" (IterativeRefinement.cpp:651-737). -/
def pm (i : ℕ) (m : Mem n) : Mem n :=
  let m1 := lowSynch i m
  let rv := fill m1.rv i fun j => ∑ k ∈ Finset.Icc (j + 1) i, m1.H i k * m1.L k j
  let aux := tri m1.L rv i m1.aux
  let m2 := { m1 with rv := rv, aux := aux, H := set1 m1.H i (fill (m1.H i) i fun j => m1.H i j - aux j) }
  subtract i (m2.H i) m2

/-- Why a call does not return normally. Code: IterativeRefinement.cpp:494, IterativeRefinement.cpp:572, IterativeRefinement.cpp:656, IterativeRefinement.cpp:765. -/
inductive Bad
  /-- `assert(0 && "Iterative refinement failed, Krylov vector with zero norm\n")` -/
  | zeroNorm
  /-- access to an array with a negative index -/
  | outOfBounds
  /-- the model's own bound on the number of cycles was reached (never happens: `C76_terminates`) -/
  | fuel
  deriving DecidableEq

/-- Normalization of the new vector (IterativeRefinement.cpp:485-497, 562-575, 638-649, 738-750; the same code in
all schemes). -/
def normalize (dbg : Bool) (i : ℕ) (m : Mem n) : Except Bad (Mem n) :=
  let t := √(m.V (i + 1) ⬝ᵥ m.V (i + 1))
  let m1 := { m with H := set2 m.H i (i + 1) t }
  if t ≠ 0 then .ok { m1 with V := set1 m1.V (i + 1) ((1 / t) • m1.V (i + 1)) }
  else if dbg then .error .zeroNorm
  else .ok m1

/-- The orthogonalization without the normalization (IterativeRefinement.cpp:467-755). -/
def orthogonalize (o : Orth) (i : ℕ) (m : Mem n) : Mem n := match o with
  | .mgs => mgs i m
  | .cgs2 => cgs2 i m
  | .twoSynch => twoSynch i m
  | .pm => pm i m

/-- `GramSchmidt` (IterativeRefinement.cpp:435-756). -/
def gramSchmidt (c : Cfg n) (i : ℕ) (m : Mem n) : Except Bad (Mem n) :=
  normalize c.dbg i (orthogonalize c.orth i m)

/-! ### One iteration -/

/-- One earlier rotation applied to the new column (IterativeRefinement.cpp:329-332), `k1 = k - 1`. -/
def givensStep (c s : ℕ → ℝ) (h : ℕ → ℝ) (k1 : ℕ) : ℕ → ℝ :=
  let t := h k1
  let h' := set1 h k1 (c k1 * t + s k1 * h (k1 + 1))
  set1 h' (k1 + 1) (-s k1 * t + c k1 * h' (k1 + 1))

/-- All earlier rotations (IterativeRefinement.cpp:327-334). -/
def givens (i : ℕ) (m : Mem n) : Mem n :=
  { m with H := set1 m.H i ((List.range i).foldl (givensStep m.c m.s) (m.H i)) }

/-- `gam` before it is guarded (IterativeRefinement.cpp:336-338). -/
def gam (i : ℕ) (m : Mem n) : ℝ := √(m.H i i * m.H i i + m.H i (i + 1) * m.H i (i + 1))

/-- The new rotation (IterativeRefinement.cpp:340-354). -/
def rotate (i : ℕ) (m : Mem n) : Mem n :=
  let hii := m.H i i
  let hii1 := m.H i (i + 1)
  let g := if |gam i m - 0| ≤ EPSILON then EPSMAC else gam i m
  let c := set1 m.c i (hii / g)
  let s := set1 m.s i (hii1 / g)
  let rs := set1 m.rs (i + 1) (-s i * m.rs i)
  { m with
    c := c
    s := s
    rs := set1 rs i (c i * rs i)
    H := set2 (set2 m.H i i (c i * hii + s i * hii1)) i (i + 1) (c i * hii1 - s i * hii) }

/-- The state of a cycle: the work arrays, the number `p` of iterations of the cycle (`i` is `p - 1`), the number of
all iterations, the estimate of the residual norm. `tiny` records, for the statements only, whether the guard of
IterativeRefinement.cpp:340-342 was ever taken. -/
structure Cyc (n : ℕ) where
  m : Mem n
  p : ℕ
  it : ℕ
  rnorm : ℝ
  tiny : Bool

open Classical in
/-- The body of the inner loop without its test (IterativeRefinement.cpp:312-356). -/
def body (c : Cfg n) (s : Cyc n) : Except Bad (Cyc n) :=
  let i := s.p
  let z := c.lu s.it (s.m.V i)
  match gramSchmidt c i { s.m with Z := set1 s.m.Z i z, V := set1 s.m.V (i + 1) (c.A.mulVec z) } with
  | .error e => .error e
  | .ok m1 =>
    let m2 := givens i m1
    let m3 := rotate i m2
    .ok ⟨m3, s.p + 1, s.it + 1, |m3.rs (i + 1)|, s.tiny || decide (|gam i m2| ≤ EPSILON)⟩

open Classical in
/-- The inner loop (IterativeRefinement.cpp:312-361); the first argument is `maxit_ - it`. -/
def inner (c : Cfg n) (tolrel : ℝ) : ℕ → Cyc n → Except Bad (Cyc n)
  | 0, s => .ok s
  | fuel + 1, s => match body c s with
    | .error e => .error e
    | .ok s' => if c.restart ≤ s'.p ∨ s'.rnorm ≤ tolrel ∨ c.maxit ≤ s'.it then .ok s' else inner c tolrel fuel s'

/-- The backward substitution, `i = p - 1` (IterativeRefinement.cpp:363-373). -/
def back (H : ℕ → ℕ → ℝ) (i : ℕ) (rs : ℕ → ℝ) : ℕ → ℝ :=
  (List.range i).reverse.foldl
    (fun r k => set1 r k ((r k - ∑ j ∈ Finset.Icc (k + 1) i, H j k * r j) / H k k)) (set1 rs i (rs i / H i i))

/-! ### Cycles -/

/-- The state of the outer loop. Code: IterativeRefinement.cpp:266, IterativeRefinement.cpp:386. -/
structure Ost (n : ℕ) where
  x : Vec n
  m : Mem n
  it : ℕ
  rnorm : ℝ
  tolrel : ℝ
  tiny : Bool

/-- What a call leaves: the vector, and what the four getters return (IterativeRefinement.cpp:206-225). `its` and
`tiny` are for the statements only: the iterations that were really done, and whether the guard was ever taken. -/
structure Res (n : ℕ) where
  x : Vec n
  final : ℝ
  init : ℝ
  bnorm : ℝ
  iters : ℕ
  its : ℕ
  tiny : Bool

/-- The exit condition at the beginning of a cycle (IterativeRefinement.cpp:285-296). -/
def exitCond (c : Cfg n) (bnorm rnorm : ℝ) : Prop :=
  c.cond = 0 ∧ |rnorm - 0| ≤ EPSILON ∨
  c.cond = 1 ∧ (|rnorm - 0| ≤ EPSILON ∨ rnorm < c.tol) ∨
  c.cond = 2 ∧ (|rnorm - 0| ≤ EPSILON ∨ rnorm < c.tol * bnorm)

/-- The tolerance for the estimate (IterativeRefinement.cpp:278-283). -/
def relTol (c : Cfg n) (rnorm : ℝ) : ℝ := if |c.tol * rnorm| < 1 / 10 ^ 16 then 1 / 10 ^ 16 else c.tol * rnorm

/-- `V[0] = b - A x` (IterativeRefinement.cpp:266-268 and 387-388 with `cudaMatvec`, lines 402-433). -/
def resid (c : Cfg n) (b x : Vec n) : Vec n := b - c.A.mulVec x

/-- The euclidean norm as computed (IterativeRefinement.cpp:270-275, 390-393). -/
def norm2 (v : Vec n) : ℝ := √(v ⬝ᵥ v)

open Classical in
/-- The outer loop (IterativeRefinement.cpp:276-399). -/
def outer (c : Cfg n) (b : Vec n) : ℕ → Ost n → Except Bad (Res n)
  | 0, _ => .error .fuel
  | fuel + 1, o =>
    let tolrel := if o.it = 0 then relTol c o.rnorm else o.tolrel
    if exitCond c (norm2 b) o.rnorm then .ok ⟨o.x, o.rnorm, o.rnorm, norm2 b, 0, o.it, o.tiny⟩
    else
      let m0 := { o.m with V := set1 o.m.V 0 ((1 / o.rnorm) • o.m.V 0), rs := set1 o.m.rs 0 o.rnorm }
      match inner c tolrel (c.maxit - o.it) ⟨m0, 0, o.it, o.rnorm, o.tiny⟩ with
      | .error e => .error e
      | .ok s =>
        if s.p = 0 then .error .outOfBounds
        else
          let rs := back s.m.H (s.p - 1) s.m.rs
          let x := o.x + ∑ j ∈ Finset.range s.p, rs j • s.m.Z j
          let v := resid c b x
          if s.rnorm ≤ tolrel ∨ c.maxit ≤ s.it then .ok ⟨x, norm2 v, o.rnorm, norm2 b, s.it, s.it, s.tiny⟩
          else outer c b fuel ⟨x, { s.m with V := set1 s.m.V 0 v, rs := rs }, s.it, norm2 v, tolrel, s.tiny⟩

/-- `fgmres` (IterativeRefinement.cpp:250-400) called with the vector `x`; `m` is what the work arrays contain. -/
def fgmres (c : Cfg n) (m : Mem n) (x b : Vec n) : Except Bad (Res n) :=
  let v := resid c b x
  outer c b (c.maxit + 1) ⟨x, { m with V := set1 m.V 0 v }, 0, norm2 v, 0, false⟩

/-- What `triangular_solve` returns in `x` for the refactorization "rf" from the second solve on, with refinement
(RefactorizationSolver.cpp:299-344): a solve with the factors, then `fgmres`; the result is `true` in any case.
`sol` is `cusolverRfSolve` at line 310. -/
def solveRf (c : Cfg n) (m : Mem n) (sol : Vec n → Vec n) (b : Vec n) : Except Bad (Res n) := fgmres c m (sol b) b

/-! ### The reduction kernel -/

/-- One halving step of the reduction in shared memory (KrylovSolverKernels.cu:91-138): the lanes below `w` add what
is `w` further. All lanes below 32 execute each of the last steps in lockstep; lanes from `w` to 31 compute values
that are not used. -/
def halve (w lanes : ℕ) (f : ℕ → ℝ) : ℕ → ℝ := fun t => if t < lanes then f t + f (t + w) else f t

/-- `MassIPTwoVec_kernel` for one vector pair (KrylovSolverKernels.cu:57-144): block of 1024 threads, thread `t` sums
the products at `t, t+1024, …`, then the sums are added in a tree. `u`, `v` are given for all indices below `N`. -/
def massIP (N : ℕ) (u v : ℕ → ℝ) : ℝ :=
  let f0 : ℕ → ℝ := fun t => ∑ q ∈ Finset.range (N + 1), if t + 1024 * q < N then u (t + 1024 * q) * v (t + 1024 * q) else 0
  let f1 := halve 64 64 (halve 128 128 (halve 256 256 (halve 512 512 f0)))
  let f2 := halve 4 32 (halve 8 32 (halve 16 32 (halve 32 32 f1)))
  (halve 1 32 (halve 2 32 f2)) 0

end

end Hiop.Fgmres
