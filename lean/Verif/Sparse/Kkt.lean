import Verif.Sparse.Assembly
import Verif.Kkt.DenseXD
import Verif.Kkt.Props

/-!
# C18, C19: sparse assembly of the symmetric systems

Source: `src/Optimization/hiopKKTLinSysSparse.cpp`.
-/

set_option linter.unusedSectionVars false
set_option linter.unusedSimpArgs false

namespace Hiop.Sparse

open Hiop.Vec Hiop.Iterate Hiop.Kkt

variable {K : Type*} [Field K] [LinearOrder K] [IsStrictOrderedRing K] {n mc m p q : ℕ}

/-! ## Model -/

/-- The matrices of a sparse problem: Hessian (one triangle) and the two Jacobians, as triplets. -/
structure SpMats (K : Type*) where
  H : List (Ent K)
  Jc : List (Ent K)
  Jd : List (Ent K)

/-- `hiopKKTLinSysCompressedSparseXYcYd::build_kkt_matrix`, hiopKKTLinSysSparse.cpp:91-196. `hx` is
`Dx_`, `ddInv` the vector `Dd_inv_` at line 176 (see `ddInvSparse`), `st` the contents of the system
matrix before the call. Timers and output are left out. -/
def buildXYcYd (S : SpMats K) (dx : RVec K n) (dl : Deltas K n mc m) (ddInv : RVec K m)
    (st : Store K) : Option (Store K) := do
  let nnz := S.H.length + S.Jc.length + S.Jd.length + (n + mc + m)
  let st ← copyRowsBlockFrom nnz st S.H 0 n 0 0
  let k := S.H.length
  let st ← copyRowsBlockFrom nnz st S.Jc 0 mc n k
  let k := k + S.Jc.length
  let st ← copyRowsBlockFrom nnz st S.Jd 0 m (n + mc) k
  let k := k + S.Jd.length
  let st ← copySubDiagonalFrom nnz st 0 n (at1 (axpy dx 1 dl.wx)) k 1
  let k := k + n
  let st ← copySubDiagonalFrom nnz st n mc (at1 dl.cc) k (-1)
  let k := k + mc
  copySubDiagonalFrom nnz st (n + mc) m (at1 ddInv) k (-1)

/-- `hiopKKTLinSysCompressedSparseXDYcYd::build_kkt_matrix`, hiopKKTLinSysSparse.cpp:421-526. -/
def buildXDYcYd (S : SpMats K) (dx : RVec K n) (dd : RVec K m) (dl : Deltas K n mc m)
    (st : Store K) : Option (Store K) := do
  let nnz := S.H.length + S.Jc.length + S.Jd.length + (m + n + m + mc + m)
  let st ← copyRowsBlockFrom nnz st S.H 0 n 0 0
  let k := S.H.length
  let st ← copyRowsBlockFrom nnz st S.Jc 0 mc (n + m) k
  let k := k + S.Jc.length
  let st ← copyRowsBlockFrom nnz st S.Jd 0 m (n + m + mc) k
  let k := k + S.Jd.length
  let st ← copyDiagToSubblock nnz st (-1) (n + m + mc) n k m
  let k := k + m
  let st ← copySubDiagonalFrom nnz st 0 n (at1 (axpy dx 1 dl.wx)) k 1
  let k := k + n
  let st ← copySubDiagonalFrom nnz st n m (at1 (axpy dd 1 dl.wd)) k 1
  let k := k + m
  let st ← copySubDiagonalFrom nnz st (n + m) mc (at1 dl.cc) k (-1)
  let k := k + mc
  copySubDiagonalFrom nnz st (n + m + mc) m (at1 dl.cd) k (-1)

/-! ## Specification -/

/-- The matrices in dense form. -/
def SpMats.toMats (S : SpMats K) (n mc m : ℕ) : Mats K n mc m where
  H := fun i j => symEntry S.H i j
  Jc := dense mc n S.Jc
  Jd := dense m n S.Jd

/-- What evaluations hand over: in range, rows sorted. -/
structure SpMats.Ok (S : SpMats K) (n mc m : ℕ) : Prop where
  hH : RowSorted S.H
  hJc : RowSorted S.Jc
  hJd : RowSorted S.Jd
  rH : InRange n n S.H
  rJc : InRange mc n S.Jc
  rJd : InRange m n S.Jd

/-- `lin` answers only with exact solutions of the symmetric system whose triplets (either triangle,
repeated positions added) are `es`. -/
def TripSolves (N : ℕ) (es : List (Ent K)) (lin : (ℕ → K) → Option (ℕ → K)) : Prop :=
  ∀ rhs x, lin rhs = some x → ∀ r < N, ∑ c ∈ Finset.range N, symEntry es r c * x c = rhs r

/-! ## Blocks -/

theorem map_shift (d : ℕ) (l : List (Ent K)) :
    (l.map fun e => ({ e with r := d + e.r } : Ent K)) = shift d 0 l := by
  unfold shift
  refine List.map_congr_left fun e _ => ?_
  simp

theorem shift_zero (l : List (Ent K)) : shift 0 0 l = l := by
  unfold shift
  conv_rhs => rw [← List.map_id l]
  refine List.map_congr_left fun e _ => ?_
  simp

/-- Appending all rows of a sorted matrix shifted down by `d`. -/
theorem append_rows (nnz : ℕ) (st : Store K) (src : List (Ent K)) (num d k : ℕ)
    (hs : RowSorted src) (hr : ∀ e ∈ src, e.r < num) (hn : k + src.length ≤ nnz) :
    ∃ st', copyRowsBlockFrom nnz st src 0 num d k = some st' ∧
      toList st' (k + src.length) = toList st k ++ shift d 0 src := by
  have hp := pickRows_all src hs d num hr
  have hl : (pickRows src (fun a => 0 + a) (fun a => d + a) 0 num).length = src.length := by
    rw [hp, List.length_map]
  obtain ⟨st', h1, h2, -⟩ := C27_copyRowsBlockFrom nnz st src 0 num d k hs (by rw [hl]; exact hn)
  rw [hl, hp, map_shift] at h2
  exact ⟨st', h1, h2⟩

theorem entry_out {es : List (Ent K)} (h : InRange p q es) {i j : ℕ} (hij : p ≤ i ∨ q ≤ j) :
    entry es i j = 0 := by
  rcases hij with hi | hj
  · exact entry_out_row fun e he x => by have := (h e he).1; omega
  · exact entry_out_col fun e he x => by have := (h e he).2; omega

theorem symEntry_out {es : List (Ent K)} (h : InRange p p es) {i j : ℕ} (hij : p ≤ i ∨ p ≤ j) :
    symEntry es i j = 0 := by
  rw [symEntry_eq]
  by_cases e : i = j
  · subst e
    rw [if_pos rfl, entry_out h (by omega)]
  · rw [if_neg e, entry_out h hij, entry_out h (by omega), add_zero]

theorem symEntry_shift {es : List (Ent K)} (h : InRange p q es) (d : ℕ) (hd : q ≤ d) (i j : ℕ) :
    symEntry (shift d 0 es) i j
      = (if d ≤ i then entry es (i - d) j else 0) + if d ≤ j then entry es (j - d) i else 0 := by
  rw [symEntry_eq]
  have e1 : ∀ a b, entry (shift d 0 es) a b = if d ≤ a then entry es (a - d) b else 0 := by
    intro a b
    rw [entry_shift]
    by_cases hh : d ≤ a
    · rw [if_pos ⟨hh, Nat.zero_le _⟩, if_pos hh, Nat.sub_zero]
    · rw [if_neg fun x => hh x.1, if_neg hh]
  by_cases e : i = j
  · subst e
    rw [if_pos rfl, e1]
    by_cases hh : d ≤ i
    · rw [if_pos hh, entry_out h (by omega), add_zero]
    · rw [if_neg hh, add_zero]
  · rw [if_neg e, e1, e1]

theorem symEntry_diagList (d num : ℕ) (v : ℕ → K) (i j : ℕ) :
    symEntry (diagList d d num v) i j
      = if i = j ∧ d ≤ i ∧ i < d + num then v (i - d) else 0 := by
  rw [symEntry_eq]
  by_cases e : i = j
  · subst e
    rw [if_pos rfl, entry_diagList]
    by_cases h : d ≤ i ∧ i < d + num
    · rw [if_pos (by omega), if_pos (by omega)]
    · rw [if_neg (by omega), if_neg (by omega)]
  · rw [if_neg e, entry_diagList, entry_diagList, if_neg (by omega), if_neg (by omega),
      if_neg (by omega), add_zero]

theorem symEntry_offDiagList (rs cs num : ℕ) (c : K) (h : cs + num ≤ rs) (i j : ℕ) :
    symEntry (diagList rs cs num fun _ => c) i j
      = if (rs ≤ i ∧ i < rs + num ∧ cs ≤ j ∧ j - cs = i - rs) ∨
          (rs ≤ j ∧ j < rs + num ∧ cs ≤ i ∧ i - cs = j - rs) then c else 0 := by
  rw [symEntry_eq, entry_diagList, entry_diagList, entry_diagList]
  by_cases e : i = j
  · subst e
    rw [if_pos rfl, if_neg (by omega), if_neg (by omega)]
  · rw [if_neg e]
    by_cases h1 : rs ≤ i ∧ i < rs + num ∧ cs ≤ j ∧ j - cs = i - rs
    · rw [if_pos h1, if_neg (by omega), if_pos (Or.inl h1), add_zero]
    · rw [if_neg h1, zero_add]
      by_cases h2 : rs ≤ j ∧ j < rs + num ∧ cs ≤ i ∧ i - cs = j - rs
      · rw [if_pos h2, if_pos (Or.inr h2)]
      · rw [if_neg h2, if_neg (by rintro (x | x) <;> contradiction)]

/-- The triplets of the (x, yc, yd) system. -/
def tripXYcYd (S : SpMats K) (dx : RVec K n) (dl : Deltas K n mc m) (ddInv : RVec K m) :
    List (Ent K) :=
  S.H ++ shift n 0 S.Jc ++ shift (n + mc) 0 S.Jd
    ++ diagList 0 0 n (fun a => 1 * at1 (axpy dx 1 dl.wx) a)
    ++ diagList n n mc (fun a => -1 * at1 dl.cc a)
    ++ diagList (n + mc) (n + mc) m (fun a => -1 * at1 ddInv a)

/-- The triplets of the (x, d, yc, yd) system. -/
def tripXDYcYd (S : SpMats K) (dx : RVec K n) (dd : RVec K m) (dl : Deltas K n mc m) :
    List (Ent K) :=
  S.H ++ shift (n + m) 0 S.Jc ++ shift (n + m + mc) 0 S.Jd
    ++ diagList (n + m + mc) n m (fun _ => -1)
    ++ diagList 0 0 n (fun a => 1 * at1 (axpy dx 1 dl.wx) a)
    ++ diagList n n m (fun a => 1 * at1 (axpy dd 1 dl.wd) a)
    ++ diagList (n + m) (n + m) mc (fun a => -1 * at1 dl.cc a)
    ++ diagList (n + m + mc) (n + m + mc) m (fun a => -1 * at1 dl.cd a)

theorem buildXYcYd_eq (S : SpMats K) (dx : RVec K n) (dl : Deltas K n mc m) (ddInv : RVec K m)
    (st : Store K) (ok : S.Ok n mc m) :
    ∃ st', buildXYcYd S dx dl ddInv st = some st' ∧
      toList st' (S.H.length + S.Jc.length + S.Jd.length + (n + mc + m))
        = tripXYcYd S dx dl ddInv := by
  set N := S.H.length + S.Jc.length + S.Jd.length + (n + mc + m) with hN
  obtain ⟨s1, a1, b1⟩ := append_rows N st S.H n 0 0 ok.hH (fun e he => (ok.rH e he).1) (by omega)
  obtain ⟨s2, a2, b2⟩ := append_rows N s1 S.Jc mc n S.H.length ok.hJc
    (fun e he => (ok.rJc e he).1) (by omega)
  obtain ⟨s3, a3, b3⟩ := append_rows N s2 S.Jd m (n + mc) (S.H.length + S.Jc.length) ok.hJd
    (fun e he => (ok.rJd e he).1) (by omega)
  obtain ⟨s4, a4, b4⟩ := C27_copySubDiagonal N s3 0 n (at1 (axpy dx 1 dl.wx))
    (S.H.length + S.Jc.length + S.Jd.length) 1 (by omega)
  obtain ⟨s5, a5, b5⟩ := C27_copySubDiagonal N s4 n mc (at1 dl.cc)
    (S.H.length + S.Jc.length + S.Jd.length + n) (-1) (by omega)
  obtain ⟨s6, a6, b6⟩ := C27_copySubDiagonal N s5 (n + mc) m (at1 ddInv)
    (S.H.length + S.Jc.length + S.Jd.length + n + mc) (-1) (by omega)
  refine ⟨s6, ?_, ?_⟩
  · unfold buildXYcYd
    simp only [← hN, a1, a2, a3, a4, a5, a6, Option.bind_eq_bind, Option.bind_some]
  · rw [hN, show S.H.length + S.Jc.length + S.Jd.length + (n + mc + m)
      = S.H.length + S.Jc.length + S.Jd.length + n + mc + m by omega, b6, b5, b4, b3, b2]
    rw [Nat.zero_add] at b1
    rw [b1, shift_zero]
    simp [toList, tripXYcYd]

theorem buildXDYcYd_eq (S : SpMats K) (dx : RVec K n) (dd : RVec K m) (dl : Deltas K n mc m)
    (st : Store K) (ok : S.Ok n mc m) :
    ∃ st', buildXDYcYd S dx dd dl st = some st' ∧
      toList st' (S.H.length + S.Jc.length + S.Jd.length + (m + n + m + mc + m))
        = tripXDYcYd S dx dd dl := by
  set N := S.H.length + S.Jc.length + S.Jd.length + (m + n + m + mc + m) with hN
  obtain ⟨s1, a1, b1⟩ := append_rows N st S.H n 0 0 ok.hH (fun e he => (ok.rH e he).1) (by omega)
  obtain ⟨s2, a2, b2⟩ := append_rows N s1 S.Jc mc (n + m) S.H.length ok.hJc
    (fun e he => (ok.rJc e he).1) (by omega)
  obtain ⟨s3, a3, b3⟩ := append_rows N s2 S.Jd m (n + m + mc) (S.H.length + S.Jc.length) ok.hJd
    (fun e he => (ok.rJd e he).1) (by omega)
  obtain ⟨s3', a3', b3'⟩ := C27_copyDiagToSubblock N s3 (-1) (n + m + mc) n
    (S.H.length + S.Jc.length + S.Jd.length) m (by omega)
  obtain ⟨s4, a4, b4⟩ := C27_copySubDiagonal N s3' 0 n (at1 (axpy dx 1 dl.wx))
    (S.H.length + S.Jc.length + S.Jd.length + m) 1 (by omega)
  obtain ⟨s4', a4', b4'⟩ := C27_copySubDiagonal N s4 n m (at1 (axpy dd 1 dl.wd))
    (S.H.length + S.Jc.length + S.Jd.length + m + n) 1 (by omega)
  obtain ⟨s5, a5, b5⟩ := C27_copySubDiagonal N s4' (n + m) mc (at1 dl.cc)
    (S.H.length + S.Jc.length + S.Jd.length + m + n + m) (-1) (by omega)
  obtain ⟨s6, a6, b6⟩ := C27_copySubDiagonal N s5 (n + m + mc) m (at1 dl.cd)
    (S.H.length + S.Jc.length + S.Jd.length + m + n + m + mc) (-1) (by omega)
  refine ⟨s6, ?_, ?_⟩
  · unfold buildXDYcYd
    simp only [← hN, a1, a2, a3, a3', a4, a4', a5, a6, Option.bind_eq_bind, Option.bind_some]
  · rw [hN, show S.H.length + S.Jc.length + S.Jd.length + (m + n + m + mc + m)
      = S.H.length + S.Jc.length + S.Jd.length + m + n + m + mc + m by omega, b6, b5, b4', b4, b3',
      b3, b2]
    rw [Nat.zero_add] at b1
    rw [b1, shift_zero]
    simp [toList, tripXDYcYd]

theorem TripSolves.sym {N : ℕ} {es : List (Ent K)} {lin : (ℕ → K) → Option (ℕ → K)}
    (h : TripSolves N es lin) : SymSolves N (symEntry es) lin := by
  intro rhs x hx r hr
  rw [← h rhs x hx r hr]
  refine Finset.sum_congr rfl fun c _ => ?_
  rcases le_total r c with hrc | hrc
  · rw [min_eq_left hrc, max_eq_right hrc]
  · rw [min_eq_right hrc, max_eq_left hrc, symEntry_symm]

theorem symEntry_minmax (es : List (Ent K)) (a b : ℕ) :
    symEntry es (min a b) (max a b) = symEntry es a b := by
  rcases le_total a b with h | h
  · rw [min_eq_left h, max_eq_right h]
  · rw [min_eq_right h, max_eq_left h, symEntry_symm]

/-! ## C18 -/

/-- **C18, sparse assembly.** For sorted matrices in range the sparse system matrix is assembled
without a failed assertion, whatever the matrix held before, and a solver that answers with exact
solutions of it solves the system in `(x, yc, yd)` with dual diagonals `delta_cc` and `Dd_inv_`. -/
theorem C18_sparse_assembly (S : SpMats K) (dx : RVec K n) (dl : Deltas K n mc m) (ddInv : RVec K m)
    (st : Store K) (ok : S.Ok n mc m) :
    ∃ st', buildXYcYd S dx dl ddInv st = some st' ∧
      ∀ (lin : (ℕ → K) → Option (ℕ → K)) (buf : ℕ → K),
        TripSolves (n + mc + m)
          (toList st' (S.H.length + S.Jc.length + S.Jd.length + (n + mc + m))) lin →
        Solves3 (S.toMats n mc m) (fun i => dx i + dl.wx i) dl.cc ddInv (pack3 lin buf) := by
  obtain ⟨st', h1, h2⟩ := buildXYcYd_eq S dx dl ddInv st ok
  refine ⟨st', h1, fun lin buf hl => ?_⟩
  rw [h2] at hl
  have W : ∀ i j, symEntry (tripXYcYd S dx dl ddInv) i j
      = symEntry S.H i j
        + ((if n ≤ i then entry S.Jc (i - n) j else 0) + if n ≤ j then entry S.Jc (j - n) i else 0)
        + ((if n + mc ≤ i then entry S.Jd (i - (n + mc)) j else 0)
          + if n + mc ≤ j then entry S.Jd (j - (n + mc)) i else 0)
        + (if i = j ∧ 0 ≤ i ∧ i < 0 + n then 1 * at1 (axpy dx 1 dl.wx) (i - 0) else 0)
        + (if i = j ∧ n ≤ i ∧ i < n + mc then -1 * at1 dl.cc (i - n) else 0)
        + (if i = j ∧ n + mc ≤ i ∧ i < n + mc + m then -1 * at1 ddInv (i - (n + mc)) else 0) := by
    intro i j
    unfold tripXYcYd
    rw [symEntry_append, symEntry_append, symEntry_append, symEntry_append, symEntry_append,
      symEntry_shift ok.rJc n le_rfl, symEntry_shift ok.rJd (n + mc) (by omega),
      symEntry_diagList, symEntry_diagList, symEntry_diagList]
  intro rx ryc ryd dx' dyc dyd h
  unfold pack3 at h
  simp only at h
  generalize hq : lin (copyTo ryd (copyTo ryc (copyTo rx buf 0) n) (n + mc)) = ans at h
  match ans, hq, h with
  | some x, hq, h =>
    simp only [Option.some.injEq, Prod.mk.injEq] at h
    obtain ⟨rfl, rfl, rfl⟩ := h
    obtain ⟨p1, p2, p3⟩ := pack3_rhs rx ryc ryd buf
    obtain ⟨k1, k2, k3⟩ := symSolves_three _ lin hl.sym _ x hq
      (fun i j => symEntry S.H i j + if i = j then dx i + dl.wx i else 0)
      (dense mc n S.Jc) (dense m n S.Jd)
      (fun i j => if i = j then -dl.cc i else 0) (fun _ _ => 0)
      (fun i j => if i = j then -ddInv i else 0)
      (fun i j => by
        rw [symEntry_minmax, W, if_neg (by omega), if_neg (by omega), if_neg (by omega),
          if_neg (by omega), if_neg (show ¬ (i.val = j.val ∧ n ≤ i.val ∧ i.val < n + mc) by omega),
          if_neg (show ¬ (i.val = j.val ∧ n + mc ≤ i.val ∧ i.val < n + mc + m) by omega)]
        by_cases e : i = j
        · subst e
          rw [if_pos (show i.val = i.val ∧ 0 ≤ i.val ∧ i.val < 0 + n by omega), if_pos rfl]
          simp [at1, axpy]
        · rw [if_neg (show ¬ (i.val = j.val ∧ 0 ≤ i.val ∧ i.val < 0 + n) from
            fun x => e (Fin.ext x.1)), if_neg e]
          ring)
      (fun i j => by
        rw [W, symEntry_out ok.rH (by omega), if_neg (by omega),
          if_pos (show n ≤ n + j.val by omega), if_neg (by omega), if_neg (by omega),
          if_neg (show ¬ (i.val = n + j.val ∧ 0 ≤ i.val ∧ i.val < 0 + n) by omega),
          if_neg (show ¬ (i.val = n + j.val ∧ n ≤ i.val ∧ i.val < n + mc) by omega),
          if_neg (show ¬ (i.val = n + j.val ∧ n + mc ≤ i.val ∧ i.val < n + mc + m) by omega),
          Nat.add_sub_cancel_left]
        simp [dense])
      (fun i j => by
        rw [W, symEntry_out ok.rH (by omega), if_neg (by omega),
          if_pos (show n ≤ n + mc + j.val by omega), if_neg (by omega),
          if_pos (show n + mc ≤ n + mc + j.val by omega), entry_out ok.rJc (by omega),
          if_neg (show ¬ (i.val = n + mc + j.val ∧ 0 ≤ i.val ∧ i.val < 0 + n) by omega),
          if_neg (show ¬ (i.val = n + mc + j.val ∧ n ≤ i.val ∧ i.val < n + mc) by omega),
          if_neg (show ¬ (i.val = n + mc + j.val ∧ n + mc ≤ i.val ∧ i.val < n + mc + m) by omega),
          Nat.add_sub_cancel_left]
        simp [dense])
      (fun i j => by
        rw [symEntry_minmax, W, symEntry_out ok.rH (by omega), if_pos (by omega),
          if_pos (show n ≤ n + j.val by omega), if_neg (by omega),
          if_neg (by omega), entry_out ok.rJc (by omega), entry_out ok.rJc (by omega),
          if_neg (show ¬ (n + i.val = n + j.val ∧ 0 ≤ n + i.val ∧ n + i.val < 0 + n) by omega),
          if_neg (show ¬ (n + i.val = n + j.val ∧ n + mc ≤ n + i.val ∧ n + i.val < n + mc + m) by
            omega)]
        by_cases e : i = j
        · subst e
          rw [if_pos (show n + i.val = n + i.val ∧ n ≤ n + i.val ∧ n + i.val < n + mc by omega),
            if_pos rfl, Nat.add_sub_cancel_left]
          simp [at1]
        · rw [if_neg (fun x => e (Fin.ext (by omega))), if_neg e]
          ring)
      (fun i j => by
        rw [W, symEntry_out ok.rH (by omega), if_pos (by omega),
          if_pos (show n ≤ n + mc + j.val by omega), if_neg (by omega),
          if_pos (show n + mc ≤ n + mc + j.val by omega), entry_out ok.rJc (by omega),
          entry_out ok.rJc (by omega), entry_out ok.rJd (by omega),
          if_neg (show ¬ (n + i.val = n + mc + j.val ∧ 0 ≤ n + i.val ∧ n + i.val < 0 + n) by omega),
          if_neg (show ¬ (n + i.val = n + mc + j.val ∧ n ≤ n + i.val ∧ n + i.val < n + mc) by omega),
          if_neg (show ¬ (n + i.val = n + mc + j.val ∧ n + mc ≤ n + i.val ∧ n + i.val < n + mc + m)
            by omega)]
        ring)
      (fun i j => by
        rw [symEntry_minmax, W, symEntry_out ok.rH (by omega), if_pos (by omega),
          if_pos (show n ≤ n + mc + j.val by omega), if_pos (by omega),
          if_pos (show n + mc ≤ n + mc + j.val by omega), entry_out ok.rJc (by omega),
          entry_out ok.rJc (by omega), entry_out ok.rJd (by omega), entry_out ok.rJd (by omega),
          if_neg (show ¬ (n + mc + i.val = n + mc + j.val ∧ 0 ≤ n + mc + i.val ∧
            n + mc + i.val < 0 + n) by omega),
          if_neg (show ¬ (n + mc + i.val = n + mc + j.val ∧ n ≤ n + mc + i.val ∧
            n + mc + i.val < n + mc) by omega)]
        by_cases e : i = j
        · subst e
          rw [if_pos (show n + mc + i.val = n + mc + i.val ∧ n + mc ≤ n + mc + i.val ∧
            n + mc + i.val < n + mc + m by omega), if_pos rfl, Nat.add_sub_cancel_left]
          simp [at1]
        · rw [if_neg (fun x => e (Fin.ext (by omega))), if_neg e]
          ring)
    refine ⟨fun i => ?_, fun i => ?_, fun i => ?_⟩
    · rw [← p1 i, ← k1 i]
      simp only [add_mul, ite_mul, zero_mul, Finset.sum_add_distrib, Finset.sum_ite_eq,
        Finset.mem_univ, if_true]
      rfl
    · rw [← p2 i, ← k2 i]
      simp only [ite_mul, zero_mul, Finset.sum_ite_eq, Finset.mem_univ, if_true,
        Finset.sum_const_zero, add_zero, neg_mul]
      rw [sub_eq_add_neg]; rfl
    · rw [← p3 i, ← k3 i]
      simp only [ite_mul, zero_mul, Finset.sum_ite_eq, Finset.mem_univ, if_true,
        Finset.sum_const_zero, add_zero, neg_mul]
      rw [sub_eq_add_neg]; rfl

/-- `Dd_inv_` of the sparse formulation, written out. -/
theorem ddInvSparse_apply (b : Bounds K n m) (it : It K n mc m) (dl : Deltas K n mc m)
    (old : RVec K m) (i : Fin m) :
    ddInvSparse b it dl old i = 1 / (old i + (sigD b it i + dl.wd i)) + dl.cd i := by
  simp only [ddInvSparse, axdzpySel_one, axpy, sigD, one_mul]
  congr 2
  ring

/-- **C18, sparse formulation (partial).** Assembly, solve and recovery together give the Newton
direction if the vector `Dd_inv_` was zero before the call and the dual perturbation of the
inequalities is zero. The full claim has neither condition; see
`C18_sparse_later_calls_refuted` and `C18_sparse_dual_perturbation_refuted`. -/
theorem C18_sparse_partial (b : Bounds K n m) (c : Counts) (S : SpMats K) (dl : Deltas K n mc m)
    (it : It K n mc m) (r : Resid K n mc m) (dir dir' : It K n mc m) (old : RVec K m) (st : Store K)
    (hp : Patterns b) (hc : CountsOk c b) (hs : SlacksOk b it) (hz : DualsOk b it) (hi : IneqOk b dl)
    (ok : S.Ok n mc m) (hold : ∀ i, old i = 0) (hcd : ∀ i, dl.cd i = 0) :
    ∃ st', buildXYcYd S (barrierDx b it) dl (ddInvSparse b it dl old) st = some st' ∧
      ∀ (lin : (ℕ → K) → Option (ℕ → K)) (buf : ℕ → K),
        TripSolves (n + mc + m)
          (toList st' (S.H.length + S.Jc.length + S.Jd.length + (n + mc + m))) lin →
        xycydDirections b c it (ddInvSparse b it dl old) (pack3 lin buf) r dir = some dir' →
        FullNewton b (S.toMats n mc m) dl it r dir' := by
  obtain ⟨st', h1, h2⟩ := C18_sparse_assembly S (barrierDx b it) dl (ddInvSparse b it dl old) st ok
  refine ⟨st', h1, fun lin buf hl hd => ?_⟩
  have hdd : ∀ i, ddInvSparse b it dl old i = 1 / (sigD b it i + dl.wd i) := by
    intro i
    rw [ddInvSparse_apply, hold, hcd, zero_add, add_zero]
  refine C18_xycyd b c _ dl it r dir dir' _ _ hp hc hs hz hi hdd ?_ hd
  have := h2 lin buf hl
  have e1 : (fun i => barrierDx b it i + dl.wx i) = fun i => sigX b it i + dl.wx i := by
    funext i; rw [barrierDx_apply]; rfl
  have e2 : ddInvSparse b it dl old = fun i => 1 / (sigD b it i + dl.wd i) + dl.cd i := by
    funext i; rw [hdd, hcd, add_zero]
  rw [e1] at this
  rw [e2] at this
  exact this

/-- When the reduction was done with a vector `ddInv`, a direction that satisfies the Newton equations
has, for every inequality, `ddInv = 1/(barrier diagonal + perturbation)` or no step in its
value. -/
theorem newton_needs_ddInv (b : Bounds K n m) (c : Counts) (M : Mats K n mc m) (dl : Deltas K n mc m)
    (it : It K n mc m) (r : Resid K n mc m) (dir dir' : It K n mc m) (ddInv : RVec K m)
    (s : Solve3 K n mc m) (hp : Patterns b) (hc : CountsOk c b) (hs : SlacksOk b it)
    (h : xycydDirections b c it ddInv s r dir = some dir') (hN : FullNewton b M dl it r dir') (i : Fin m) :
    ddInv i * (sigD b it i + dl.wd i) = 1 ∨ dir'.d i = 0 := by
  have h2 := (newton_reduced b M dl it r dir' hp hs hN).2 i
  rw [← rdTilde_apply b c hc] at h2
  unfold xycydDirections at h
  simp only at h
  generalize hq : s (rxTilde b c it r) r.ryc (axzpy r.ryd 1 (rdTilde b c it r) ddInv) = ans at h
  match ans, hq, h with
  | some (dx, dyc, dyd), hq, h =>
    simp only [Option.some.injEq] at h
    have e1 : dir'.d i = (rdTilde b c it r i + dyd i) * ddInv i := by
      rw [← h, fullSpace_d _ _ hc hp]; simp [componentMult, axpy]
    have e2 : dir'.yd i = dyd i := by rw [← h, fullSpace_yd _ _ hc hp]
    have e3 : (sigD b it i + dl.wd i) * dir'.d i = rdTilde b c it r i + dyd i := by
      rw [← h2, e2]; ring
    rw [← e3] at e1
    by_cases hd : dir'.d i = 0
    · exact .inr hd
    · left
      have : dir'.d i * (ddInv i * (sigD b it i + dl.wd i)) = dir'.d i * 1 := by
        rw [mul_one]; nth_rw 2 [e1]; ring
      exact mul_left_cancel₀ hd this

/-- **C18, refuted for the sparse formulation from the second call on.** The vector `Dd_inv_` is not
reset between calls. Even if its first contents were nonnegative and no dual perturbation is used,
every direction computed after a second (or later) matrix build satisfies the Newton equations
only in the inequalities whose value does not move. -/
theorem C18_sparse_later_calls_refuted (b : Bounds K n m) (c : Counts) (M : Mats K n mc m)
    (dl0 dl : Deltas K n mc m) (it0 it : It K n mc m) (r : Resid K n mc m) (dir dir' : It K n mc m)
    (old : RVec K m) (s : Solve3 K n mc m)
    (hp : Patterns b) (hc : CountsOk c b) (hs0 : SlacksOk b it0) (hz0 : DualsOk b it0)
    (hi0 : IneqOk b dl0) (hs : SlacksOk b it) (hz : DualsOk b it) (hi : IneqOk b dl)
    (hold : ∀ i, 0 ≤ old i) (hcd0 : ∀ i, 0 ≤ dl0.cd i) (hcd : ∀ i, dl.cd i = 0)
    (h : xycydDirections b c it (ddInvSparse b it dl (ddInvSparse b it0 dl0 old)) s r dir = some dir')
    (i : Fin m) (hd : dir'.d i ≠ 0) : ¬ FullNewton b M dl it r dir' := by
  intro hN
  rcases newton_needs_ddInv b c M dl it r dir dir' _ s hp hc hs h hN i with h1 | h1
  · have p0 := sigD_pos b dl0 it0 hs0 hz0 hi0 i
    have p1 := sigD_pos b dl it hs hz hi i
    rw [ddInvSparse_apply, ddInvSparse_apply, hcd, add_zero] at h1
    have q0 : 0 < 1 / (old i + (sigD b it0 i + dl0.wd i)) + dl0.cd i :=
      add_pos_of_pos_of_nonneg (one_div_pos.2 (add_pos_of_nonneg_of_pos (hold i) p0)) (hcd0 i)
    generalize 1 / (old i + (sigD b it0 i + dl0.wd i)) + dl0.cd i = q at h1 q0
    rw [one_div, inv_mul_eq_iff_eq_mul₀ (by positivity), mul_one] at h1
    linarith
  · exact hd h1

/-- **C18, refuted for the sparse formulation with a dual perturbation.** `delta_cd` is added into the
vector that is used afterwards as the reciprocal diagonal. Even in the first call with a zeroed
vector the direction satisfies the Newton equations only in the inequalities whose value does
not move. -/
theorem C18_sparse_dual_perturbation_refuted (b : Bounds K n m) (c : Counts) (M : Mats K n mc m)
    (dl : Deltas K n mc m) (it : It K n mc m) (r : Resid K n mc m) (dir dir' : It K n mc m)
    (s : Solve3 K n mc m)
    (hp : Patterns b) (hc : CountsOk c b) (hs : SlacksOk b it) (hz : DualsOk b it) (hi : IneqOk b dl)
    (h : xycydDirections b c it (ddInvSparse b it dl fun _ => 0) s r dir = some dir')
    (i : Fin m) (hcd : 0 < dl.cd i) (hd : dir'.d i ≠ 0) : ¬ FullNewton b M dl it r dir' := by
  intro hN
  rcases newton_needs_ddInv b c M dl it r dir dir' _ s hp hc hs h hN i with h1 | h1
  · have p1 := sigD_pos b dl it hs hz hi i
    rw [ddInvSparse_apply, zero_add, add_mul, one_div, inv_mul_cancel₀ p1.ne'] at h1
    have := mul_pos hcd p1
    linarith
  · exact hd h1

/-! ## C19 -/

/-- **C19, sparse assembly.** For sorted matrices in range the sparse (x, d, yc, yd) matrix is assembled
without a failed assertion, whatever it held before, and a solver that answers with exact
solutions of it solves the system with all four perturbations in place. -/
theorem C19_sparse_assembly (S : SpMats K) (dx : RVec K n) (dd : RVec K m) (dl : Deltas K n mc m)
    (st : Store K) (ok : S.Ok n mc m) :
    ∃ st', buildXDYcYd S dx dd dl st = some st' ∧
      ∀ (lin : (ℕ → K) → Option (ℕ → K)) (buf : ℕ → K),
        TripSolves (n + m + mc + m)
          (toList st' (S.H.length + S.Jc.length + S.Jd.length + (m + n + m + mc + m))) lin →
        Solves4 (S.toMats n mc m) (fun i => dx i + dl.wx i) (fun i => dd i + dl.wd i) dl.cc dl.cd
          (pack4 lin buf) := by
  obtain ⟨st', h1, h2⟩ := buildXDYcYd_eq S dx dd dl st ok
  refine ⟨st', h1, fun lin buf hl => ?_⟩
  rw [h2] at hl
  have W : ∀ i j, symEntry (tripXDYcYd S dx dd dl) i j
      = symEntry S.H i j
        + ((if n + m ≤ i then entry S.Jc (i - (n + m)) j else 0)
          + if n + m ≤ j then entry S.Jc (j - (n + m)) i else 0)
        + ((if n + m + mc ≤ i then entry S.Jd (i - (n + m + mc)) j else 0)
          + if n + m + mc ≤ j then entry S.Jd (j - (n + m + mc)) i else 0)
        + (if (n + m + mc ≤ i ∧ i < n + m + mc + m ∧ n ≤ j ∧ j - n = i - (n + m + mc)) ∨
            (n + m + mc ≤ j ∧ j < n + m + mc + m ∧ n ≤ i ∧ i - n = j - (n + m + mc)) then -1 else 0)
        + (if i = j ∧ 0 ≤ i ∧ i < 0 + n then 1 * at1 (axpy dx 1 dl.wx) (i - 0) else 0)
        + (if i = j ∧ n ≤ i ∧ i < n + m then 1 * at1 (axpy dd 1 dl.wd) (i - n) else 0)
        + (if i = j ∧ n + m ≤ i ∧ i < n + m + mc then -1 * at1 dl.cc (i - (n + m)) else 0)
        + (if i = j ∧ n + m + mc ≤ i ∧ i < n + m + mc + m then
            -1 * at1 dl.cd (i - (n + m + mc)) else 0) := by
    intro i j
    unfold tripXDYcYd
    rw [symEntry_append, symEntry_append, symEntry_append, symEntry_append, symEntry_append,
      symEntry_append, symEntry_append,
      symEntry_shift ok.rJc (n + m) (by omega), symEntry_shift ok.rJd (n + m + mc) (by omega),
      symEntry_offDiagList _ _ _ _ (by omega),
      symEntry_diagList, symEntry_diagList, symEntry_diagList, symEntry_diagList]
  intro rx rd ryc ryd dx' dd' dyc dyd h
  unfold pack4 at h
  simp only at h
  generalize hq : lin (copyTo ryd (copyTo ryc (copyTo rd (copyTo rx buf 0) n) (n + m))
    (n + m + mc)) = ans at h
  match ans, hq, h with
  | some x, hq, h =>
    simp only [Option.some.injEq, Prod.mk.injEq] at h
    obtain ⟨rfl, rfl, rfl, rfl⟩ := h
    obtain ⟨p1, p2, p3, p4⟩ := pack4_rhs rx rd ryc ryd buf
    have e := hl _ x hq
    generalize symEntry (tripXDYcYd S dx dd dl) = V at W e
    have wA : ∀ i j : Fin n, V i j = symEntry S.H i j + if i = j then dx i + dl.wx i else 0 := by
      intro i j
      rw [W]
      by_cases hij : i = j
      · subst hij
        simp (disch := omega) only [if_pos, if_neg]
        simp [at1, axpy]
      · have : i.val ≠ j.val := fun e => hij (Fin.ext e)
        simp (disch := omega) only [if_neg hij, if_neg]
        simp
    have wAB : ∀ (i : Fin n) (j : Fin m), V i (n + j) = 0 ∧ V (n + j) i = 0 := by
      intro i j
      rw [W, W]
      simp (disch := omega) only [if_pos, if_neg, symEntry_out ok.rH, entry_out ok.rJc,
        entry_out ok.rJd, add_zero, and_self]
    have wAC : ∀ (i : Fin n) (j : Fin mc), V i (n + m + j) = entry S.Jc j i ∧
        V (n + m + j) i = entry S.Jc j i := by
      intro i j
      rw [W, W]
      simp (disch := omega) only [if_pos, if_neg, symEntry_out ok.rH,
        entry_out ok.rJd, add_zero, zero_add, and_self, Nat.add_sub_cancel_left]
    have wAD : ∀ (i : Fin n) (j : Fin m), V i (n + m + mc + j) = entry S.Jd j i ∧
        V (n + m + mc + j) i = entry S.Jd j i := by
      intro i j
      rw [W, W]
      simp (disch := omega) only [if_pos, if_neg, symEntry_out ok.rH,
        entry_out ok.rJc, add_zero, zero_add, and_self, Nat.add_sub_cancel_left]
    have wB : ∀ i j : Fin m, V (n + i) (n + j) = if i = j then dd i + dl.wd i else 0 := by
      intro i j
      rw [W]
      by_cases hij : i = j
      · subst hij
        simp (disch := omega) only [if_pos, if_neg, symEntry_out ok.rH, entry_out ok.rJc,
          entry_out ok.rJd]
        simp [at1, axpy]
      · have : i.val ≠ j.val := fun e => hij (Fin.ext e)
        simp (disch := omega) only [if_neg hij, if_pos, if_neg, symEntry_out ok.rH,
          entry_out ok.rJc, entry_out ok.rJd]
        simp
    have wBC : ∀ (i : Fin m) (j : Fin mc), V (n + i) (n + m + j) = 0 ∧ V (n + m + j) (n + i) = 0 := by
      intro i j
      rw [W, W]
      simp (disch := omega) only [if_pos, if_neg, symEntry_out ok.rH, entry_out ok.rJc,
        entry_out ok.rJd, add_zero, and_self]
    have wBD : ∀ i j : Fin m, V (n + i) (n + m + mc + j) = (if i = j then -1 else 0) ∧
        V (n + m + mc + j) (n + i) = if i = j then -1 else 0 := by
      intro i j
      rw [W, W]
      by_cases hij : i = j
      · subst hij
        simp (disch := omega) only [if_pos, if_neg, symEntry_out ok.rH, entry_out ok.rJc,
          entry_out ok.rJd, add_zero, zero_add, and_self, if_true]
      · have : i.val ≠ j.val := fun e => hij (Fin.ext e)
        simp (disch := omega) only [if_neg hij, if_pos, if_neg, symEntry_out ok.rH,
          entry_out ok.rJc, entry_out ok.rJd, add_zero, and_self]
    have wC : ∀ i j : Fin mc, V (n + m + i) (n + m + j) = if i = j then - dl.cc i else 0 := by
      intro i j
      rw [W]
      by_cases hij : i = j
      · subst hij
        simp (disch := omega) only [if_pos, if_neg, symEntry_out ok.rH, entry_out ok.rJc,
          entry_out ok.rJd]
        simp [at1]
      · have : i.val ≠ j.val := fun e => hij (Fin.ext e)
        simp (disch := omega) only [if_neg hij, if_pos, if_neg, symEntry_out ok.rH,
          entry_out ok.rJc, entry_out ok.rJd]
        simp
    have wCD : ∀ (i : Fin mc) (j : Fin m), V (n + m + i) (n + m + mc + j) = 0 ∧
        V (n + m + mc + j) (n + m + i) = 0 := by
      intro i j
      rw [W, W]
      simp (disch := omega) only [if_pos, if_neg, symEntry_out ok.rH, entry_out ok.rJc,
        entry_out ok.rJd, add_zero, and_self]
    have wD : ∀ i j : Fin m, V (n + m + mc + i) (n + m + mc + j)
        = if i = j then - dl.cd i else 0 := by
      intro i j
      rw [W]
      by_cases hij : i = j
      · subst hij
        simp (disch := omega) only [if_pos, if_neg, symEntry_out ok.rH, entry_out ok.rJc,
          entry_out ok.rJd]
        simp [at1]
      · have : i.val ≠ j.val := fun e => hij (Fin.ext e)
        simp (disch := omega) only [if_neg hij, if_pos, if_neg, symEntry_out ok.rH,
          entry_out ok.rJc, entry_out ok.rJd]
        simp
    refine ⟨fun i => ?_, fun i => ?_, fun i => ?_, fun i => ?_⟩
    · have := e i (by omega)
      rw [p1, sum_four] at this
      rw [← this]
      simp only [wA, wAB, wAC, wAD, copyOut, Nat.zero_add, add_mul, Finset.sum_add_distrib, ite_mul,
        zero_mul, Finset.sum_ite_eq, Finset.mem_univ, if_true, Finset.sum_const_zero, add_zero]
      rfl
    · have := e (n + i) (by omega)
      rw [p2, sum_four] at this
      rw [← this]
      simp only [wB, wAB, wBC, wBD, copyOut, ite_mul, zero_mul, Finset.sum_ite_eq, Finset.mem_univ,
        if_true, Finset.sum_const_zero, zero_add, add_zero]
      ring
    · have := e (n + m + i) (by omega)
      rw [p3, sum_four] at this
      rw [← this]
      simp only [wC, wAC, wBC, wCD, copyOut, Nat.zero_add, ite_mul, zero_mul, Finset.sum_ite_eq,
        Finset.mem_univ, if_true, Finset.sum_const_zero, add_zero]
      rw [sub_eq_add_neg, neg_mul]; rfl
    · have := e (n + m + mc + i) (by omega)
      rw [p4, sum_four] at this
      rw [← this]
      simp only [wD, wAD, wBD, wCD, copyOut, Nat.zero_add, ite_mul, zero_mul, Finset.sum_ite_eq,
        Finset.sum_ite_eq', Finset.mem_univ, if_true, Finset.sum_const_zero, add_zero]
      simp only [sub_eq_add_neg, neg_mul, one_mul]; rfl

/-- **C19, sparse formulation.** Assembly, solve and recovery together give the Newton direction, for
all perturbations and whatever earlier calls left in the matrix. -/
theorem C19_sparse (b : Bounds K n m) (c : Counts) (S : SpMats K) (dl : Deltas K n mc m)
    (it : It K n mc m) (r : Resid K n mc m) (dir dir' : It K n mc m) (st : Store K)
    (hp : Patterns b) (hc : CountsOk c b) (hs : SlacksOk b it) (ok : S.Ok n mc m) :
    ∃ st', buildXDYcYd S (barrierDx b it) (barrierDd b it) dl st = some st' ∧
      ∀ (lin : (ℕ → K) → Option (ℕ → K)) (buf : ℕ → K),
        TripSolves (n + m + mc + m)
          (toList st' (S.H.length + S.Jc.length + S.Jd.length + (m + n + m + mc + m))) lin →
        xdycydDirections b c it (pack4 lin buf) r dir = some dir' →
        FullNewton b (S.toMats n mc m) dl it r dir' := by
  obtain ⟨st', h1, h2⟩ := C19_sparse_assembly S (barrierDx b it) (barrierDd b it) dl st ok
  refine ⟨st', h1, fun lin buf hl hd => ?_⟩
  refine C19_xdycyd b c _ dl it r dir dir' _ hp hc hs ?_ hd
  have := h2 lin buf hl
  have e1 : (fun i => barrierDx b it i + dl.wx i) = fun i => sigX b it i + dl.wx i := by
    funext i; rw [barrierDx_apply]; rfl
  have e2 : (fun i => barrierDd b it i + dl.wd i) = fun i => sigD b it i + dl.wd i := by
    funext i; rw [barrierDd_apply]; rfl
  rw [e1, e2] at this
  exact this

/-! ## Concrete cases -/

/-- One variable, one equality, one inequality, all coefficients one. -/
def exSp : SpMats ℚ := ⟨[⟨0, 0, 1⟩], [⟨0, 0, 1⟩], [⟨0, 0, 1⟩]⟩

theorem exSp_ok : exSp.Ok 1 1 1 := by
  constructor <;> first
    | (simp [exSp, RowSorted]; done)
    | (intro e he; simp only [exSp, List.mem_singleton] at he; subst he; simp)

/-- A solver for the (x, d, yc, yd) system of the instance,
`[3 0 1 1; 0 2 0 -1; 1 0 -1 0; 1 -1 0 -1]`. -/
def exLinSp : (ℕ → ℚ) → Option (ℕ → ℚ) := fun b =>
  let x := (3 * b 0 + b 1 + 3 * b 2 + 2 * b 3) / 14
  let yd := (2 * x - b 1 - 2 * b 3) / 3
  some fun k => if k = 0 then x else if k = 1 then (b 1 + yd) / 2 else if k = 2 then x - b 2 else yd

theorem exLinSp_solves : TripSolves (1 + 1 + 1 + 1)
    (tripXDYcYd exSp (barrierDx exB exIt) (barrierDd exB exIt) exDl) exLinSp := by
  intro rhs x h r hr
  simp only [exLinSp, Option.some.injEq] at h
  subst h
  have hs : ∀ f : ℕ → ℚ, ∑ c ∈ Finset.range (1 + 1 + 1 + 1), f c = f 0 + f 1 + f 2 + f 3 := by
    intro f; simp [Finset.sum_range_succ]
  rw [hs]
  have t : ∀ i < 4, ∀ j < 4, symEntry (tripXDYcYd exSp (barrierDx exB exIt) (barrierDd exB exIt)
      exDl) i j = (![![3, 0, 1, 1], ![0, 2, 0, -1], ![1, 0, -1, 0], ![1, -1, 0, -1]] :
        Fin 4 → Fin 4 → ℚ) (Fin.ofNat 4 i) (Fin.ofNat 4 j) := by
    decide +kernel
  rw [t r hr 0 (by omega), t r hr 1 (by omega), t r hr 2 (by omega), t r hr 3 (by omega)]
  have : r = 0 ∨ r = 1 ∨ r = 2 ∨ r = 3 := by omega
  rcases this with rfl | rfl | rfl | rfl <;> simp [Fin.ofNat] <;> ring

/-- C19 applies to the instance: all hypotheses are met, a direction is produced and it is the Newton
direction. -/
example : ∃ st' dir', buildXDYcYd exSp (barrierDx exB exIt) (barrierDd exB exIt) exDl
      (fun _ => ⟨9, 9, 9⟩) = some st' ∧
    xdycydDirections exB exC exIt (pack4 exLinSp fun _ => 0) exR exIt = some dir' ∧
    FullNewton exB (exSp.toMats 1 1 1) exDl exIt exR dir' := by
  obtain ⟨st', a, b⟩ := buildXDYcYd_eq exSp (barrierDx exB exIt) (barrierDd exB exIt) exDl
    (fun _ => ⟨9, 9, 9⟩) exSp_ok
  obtain ⟨st'', a', b'⟩ := C19_sparse exB exC exSp exDl exIt exR exIt _ (fun _ => ⟨9, 9, 9⟩)
    exB_patterns exC_counts exIt_slacks exSp_ok
  obtain rfl : st' = st'' := by rw [a] at a'; exact Option.some.inj a'
  exact ⟨st', _, a, rfl, b' exLinSp (fun _ => 0) (by rw [b]; exact exLinSp_solves) rfl⟩

/-- The refutation for later calls applies: two calls from a zeroed vector on the instance produce a
direction with a nonzero step in the inequality. -/
example : ∃ dir', xycydDirections exB exC exIt
      (ddInvSparse exB exIt ⟨fun _ => 1, fun _ => 1, fun _ => 1, fun _ => 0⟩
        (ddInvSparse exB exIt ⟨fun _ => 1, fun _ => 1, fun _ => 1, fun _ => 0⟩ fun _ => 0))
      exSolve exR exIt = some dir' ∧ dir'.d 0 ≠ 0 := by
  refine ⟨_, rfl, ?_⟩
  decide +kernel

end Hiop.Sparse
