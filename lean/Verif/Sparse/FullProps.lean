import Verif.Sparse.FullLemmas

/-!
# C57: the full unsymmetric sparse system gives the Newton direction
-/

set_option linter.unusedSectionVars false
set_option linter.unusedSimpArgs false

namespace Hiop.Sparse

open Hiop.Vec Hiop.Iterate Hiop.Kkt Hiop.Range

variable {K : Type*} [Field K] [LinearOrder K] [IsStrictOrderedRing K] {n mc m p q : ℕ}

/-! ## Specification -/

/-- The counters are the numbers of bounds. -/
structure BCounts.Ok (c : BCounts) (b : Bounds K n m) : Prop where
  ndl : c.ndl = count b.idl
  ndu : c.ndu = count b.idu
  nxl : c.nxl = count b.ixl
  nxu : c.nxu = count b.ixu

/-- `lin` answers only with exact solutions of the (unsymmetric) system whose triplets, repeated
positions added, are `es`. -/
def NsSolves (N : ℕ) (es : List (Ent K)) (lin : RVec K N → Option (RVec K N)) : Prop :=
  ∀ rhs x, lin rhs = some x → ∀ r : Fin N, ∑ c : Fin N, entry es r c * x c = rhs r

/-- A direction with zeros where there is no bound. -/
structure OffZero (b : Bounds K n m) (d : It K n mc m) : Prop where
  xl : ∀ i, b.ixl i = 0 → d.sxl i = 0 ∧ d.zl i = 0
  xu : ∀ i, b.ixu i = 0 → d.sxu i = 0 ∧ d.zu i = 0
  dl : ∀ i, b.idl i = 0 → d.sdl i = 0 ∧ d.vl i = 0
  du : ∀ i, b.idu i = 0 → d.sdu i = 0 ∧ d.vu i = 0

/-! ## The matrix -/

/-- The triplets block by block. -/
def fullLists (b : Bounds K n m) (c : BCounts) (S : SpMats K) (it : It K n mc m)
    (hx : RVec K n) (hd : RVec K m) (dl : Deltas K n mc m) : List (List (Ent K)) :=
  let n2 := st2 n mc m
  let n3 := st3 n mc m
  let n4 := st4 c n mc m
  [shift 0 0 (S.H.filter fun e => decide (e.r ≠ e.c)),
   shift 0 0 (swap S.H),
   shift 0 n (swap S.Jc),
   shift 0 (n + mc) (swap S.Jd),
   colPat (-1) 0 (n3 + c.ndl + c.ndu) b.ixl,
   colPat 1 0 (n3 + c.ndl + c.ndu + c.nxl) b.ixu,
   shift n 0 S.Jc,
   shift (n + mc) 0 S.Jd,
   diagList (n + mc) n2 m fun _ => -1,
   diagList n2 (n + mc) m fun _ => -1,
   colPat (-1) n2 n3 b.idl,
   colPat 1 n2 (n3 + c.ndl) b.idu,
   rowPat (-1) n3 n2 b.idl,
   diagList n3 n4 c.ndl fun _ => 1,
   rowPat 1 (n3 + c.ndl) n2 b.idu,
   diagList (n3 + c.ndl) (n4 + c.ndl) c.ndu fun _ => 1,
   rowPat (-1) (n3 + c.ndl + c.ndu) 0 b.ixl,
   diagList (n3 + c.ndl + c.ndu) (n4 + c.ndl + c.ndu) c.nxl fun _ => 1,
   rowPat 1 (n3 + c.ndl + c.ndu + c.nxl) 0 b.ixu,
   diagList (n3 + c.ndl + c.ndu + c.nxl) (n4 + c.ndl + c.ndu + c.nxl) c.nxu fun _ => 1,
   selDiag it.sdl n4 n3 b.idl,
   selDiag it.vl n4 n4 b.idl,
   selDiag it.sdu (n4 + c.ndl) (n3 + c.ndl) b.idu,
   selDiag it.vu (n4 + c.ndl) (n4 + c.ndl) b.idu,
   selDiag it.sxl (n4 + c.ndl + c.ndu) (n3 + c.ndl + c.ndu) b.ixl,
   selDiag it.zl (n4 + c.ndl + c.ndu) (n4 + c.ndl + c.ndu) b.ixl,
   selDiag it.sxu (n4 + c.ndl + c.ndu + c.nxl) (n3 + c.ndl + c.ndu + c.nxl) b.ixu,
   selDiag it.zu (n4 + c.ndl + c.ndu + c.nxl) (n4 + c.ndl + c.ndu + c.nxl) b.ixu,
   diagList 0 0 n fun a => 1 * at1 hx a,
   diagList n2 n2 m fun a => 1 * at1 hd a,
   diagList n n mc fun a => -1 * at1 dl.cc a,
   diagList (n + mc) (n + mc) m fun a => -1 * at1 dl.cd a]

variable (b : Bounds K n m) (c : BCounts) (S : SpMats K) (it : It K n mc m)
  (hx : RVec K n) (hd : RVec K m) (dl : Deltas K n mc m)

theorem fullBlks_appends (hp : Patterns b) (hc : c.Ok b) (nnz : ℕ) :
    List.Forall₂ (Appends nnz) (fullBlks nnz b c S it hx hd dl) (fullLists b c S it hx hd dl) := by
  unfold fullBlks fullLists
  refine .cons (appends_sub_off _ _ _ _) <| .cons (appends_sub_trans _ _ _ _) <|
    .cons (appends_sub_trans _ _ _ _) <| .cons (appends_sub_trans _ _ _ _) <|
    .cons (appends_col _ _ _ _ _ hp.ixl hc.nxl) <| .cons (appends_col _ _ _ _ _ hp.ixu hc.nxu) <|
    .cons (appends_sub _ _ _ _) <| .cons (appends_sub _ _ _ _) <|
    .cons (appends_diag _ _ _ _ _) <| .cons (appends_diag _ _ _ _ _) <|
    .cons (appends_col _ _ _ _ _ hp.idl hc.ndl) <| .cons (appends_col _ _ _ _ _ hp.idu hc.ndu) <|
    .cons (appends_row _ _ _ _ _ hp.idl hc.ndl) <| .cons (appends_diag _ _ _ _ _) <|
    .cons (appends_row _ _ _ _ _ hp.idu hc.ndu) <| .cons (appends_diag _ _ _ _ _) <|
    .cons (appends_row _ _ _ _ _ hp.ixl hc.nxl) <| .cons (appends_diag _ _ _ _ _) <|
    .cons (appends_row _ _ _ _ _ hp.ixu hc.nxu) <| .cons (appends_diag _ _ _ _ _) <|
    .cons (appends_sel _ _ _ _ _ hp.idl hc.ndl) <| .cons (appends_sel _ _ _ _ _ hp.idl hc.ndl) <|
    .cons (appends_sel _ _ _ _ _ hp.idu hc.ndu) <| .cons (appends_sel _ _ _ _ _ hp.idu hc.ndu) <|
    .cons (appends_sel _ _ _ _ _ hp.ixl hc.nxl) <| .cons (appends_sel _ _ _ _ _ hp.ixl hc.nxl) <|
    .cons (appends_sel _ _ _ _ _ hp.ixu hc.nxu) <| .cons (appends_sel _ _ _ _ _ hp.ixu hc.nxu) <|
    .cons (appends_subDiag _ _ _ _ _) <| .cons (appends_subDiag _ _ _ _ _) <|
    .cons (appends_subDiag _ _ _ _ _) <| .cons (appends_subDiag _ _ _ _ _) .nil

theorem forall₂_length {nnz : ℕ} {Bs : List (Blk K)} {ls : List (List (Ent K))}
    (h : List.Forall₂ (Appends nnz) Bs ls) : ls.flatten.length = (Bs.map Blk.inc).sum := by
  induction h with
  | nil => rfl
  | cons h _ ih => simp [ih, h.1]

theorem fullLists_length (hp : Patterns b) (hc : c.Ok b) :
    (fullLists b c S it hx hd dl).flatten.length = fullNnz c S n mc m := by
  rw [forall₂_length (fullBlks_appends b c S it hx hd dl hp hc 0)]
  simp only [fullBlks, fullNnz, st3, st2, List.map_cons, List.map_nil, List.sum_cons, List.sum_nil]
  omega

theorem fullLists_cols (hc : c.Ok b) (ok : S.Ok n mc m) :
    ∀ e ∈ (fullLists b c S it hx hd dl).flatten, e.c < fullN c n mc m := by
  have h1 := hc.ndl
  have h2 := hc.ndu
  have h3 := hc.nxl
  have h4 := hc.nxu
  intro e he
  rw [List.mem_flatten] at he
  obtain ⟨l, hl, he⟩ := he
  simp only [fullLists, List.mem_cons, List.not_mem_nil, or_false] at hl
  unfold fullN st4 st3 st2
  unfold st4 st3 st2 at hl
  rcases hl with rfl | rfl | rfl | rfl | rfl | rfl | rfl | rfl | rfl | rfl | rfl | rfl | rfl | rfl |
    rfl | rfl | rfl | rfl | rfl | rfl | rfl | rfl | rfl | rfl | rfl | rfl | rfl | rfl | rfl | rfl |
    rfl | rfl
  all_goals first
    | (have := shift_cols (offdiag_inRange ok.rH) _ _ _ he; omega)
    | (have := shift_cols (swap_inRange ok.rH) _ _ _ he; omega)
    | (have := shift_cols (swap_inRange ok.rJc) _ _ _ he; omega)
    | (have := shift_cols (swap_inRange ok.rJd) _ _ _ he; omega)
    | (have := shift_cols ok.rJc _ _ _ he; omega)
    | (have := shift_cols ok.rJd _ _ _ he; omega)
    | (have := colPat_cols _ _ _ _ _ he; omega)
    | (have := rowPat_cols _ _ _ _ _ he; omega)
    | (have := selDiag_cols _ _ _ _ _ he; omega)
    | (have := diagList_cols _ _ _ _ _ he; omega)

/-- A row of the whole matrix is the sum of the rows of the blocks. -/
theorem rowSum_full (x : ℕ → K) (r : ℕ) :
    rowSum (fullLists b c S it hx hd dl).flatten x r =
      ((fullLists b c S it hx hd dl).map fun l => rowSum l x r).sum := rowSum_flatten _ _ _

theorem at1_fin (v : RVec K p) (i : Fin p) : at1 v i = v i := by
  unfold at1; rw [dif_pos i.2]

section rows
variable (hc : c.Ok b) (ok : S.Ok n mc m) (x : ℕ → K)
include hc ok

theorem row_x (i : Fin n) :
    rowSum (fullLists b c S it hx hd dl).flatten x (i) =
      (∑ j : Fin n, symEntry S.H i j * x j) + hx i * x i
        + (∑ j : Fin mc, entry S.Jc j i * x (n + j)) + (∑ j : Fin m, entry S.Jd j i * x (n + mc + j))
        - (if b.ixl i = 1 then x (st3 n mc m + c.ndl + c.ndu + rank b.ixl i) else 0)
        + (if b.ixu i = 1 then x (st3 n mc m + c.ndl + c.ndu + c.nxl + rank b.ixu i) else 0) := by
  have e2 : st2 n mc m = n + mc + m := rfl
  have e3 : st3 n mc m = st2 n mc m + m := rfl
  have e4 : st4 c n mc m = st3 n mc m + c.ndl + c.ndu + c.nxl + c.nxu := rfl
  have hi := i.2
  have h1 := hc.ndl
  have h2 := hc.ndu
  have h3 := hc.nxl
  have h4 := hc.nxu
  rw [rowSum_full]
  simp only [fullLists, List.map_cons, List.map_nil, List.sum_cons, List.sum_nil]
  simp (disch := omega) only [rowSum_shift_out ok.rJc, rowSum_shift_out ok.rJd,
    rowSum_shift_out (offdiag_inRange ok.rH), rowSum_shift_out (swap_inRange ok.rH),
    rowSum_shift_out (swap_inRange ok.rJc), rowSum_shift_out (swap_inRange ok.rJd),
    rowSum_shift_in ok.rJc, rowSum_shift_in ok.rJd,
    rowSum_shift_in (offdiag_inRange ok.rH), rowSum_shift_in (swap_inRange ok.rH),
    rowSum_shift_in (swap_inRange ok.rJc), rowSum_shift_in (swap_inRange ok.rJd),
    rowSum_diag_out, rowSum_diag_in,
    rowSum_rowPat_out, rowSum_selDiag_out, rowSum_colPat_out, 
    rowSum_colPat (ix := b.ixl) i, rowSum_colPat (ix := b.ixu) i, add_zero, zero_add,
    Nat.sub_zero, Nat.add_sub_cancel_left, at1_fin, one_mul]
  rw [← rowSum_hess ok.rH x i, rowSum_swap_dense ok.rJc, rowSum_swap_dense ok.rJd]
  by_cases a1 : b.ixl i = 1 <;> by_cases a2 : b.ixu i = 1 <;> simp only [a1, a2, if_true, if_false] <;>
    ring


theorem row_yc (i : Fin mc) :
    rowSum (fullLists b c S it hx hd dl).flatten x (n + i) =
      (∑ j : Fin n, entry S.Jc i j * x j) - dl.cc i * x (n + i) := by
  have e2 : st2 n mc m = n + mc + m := rfl
  have e3 : st3 n mc m = st2 n mc m + m := rfl
  have e4 : st4 c n mc m = st3 n mc m + c.ndl + c.ndu + c.nxl + c.nxu := rfl
  have hi := i.2
  have h1 := hc.ndl
  have h2 := hc.ndu
  have h3 := hc.nxl
  have h4 := hc.nxu
  rw [rowSum_full]
  simp only [fullLists, List.map_cons, List.map_nil, List.sum_cons, List.sum_nil]
  simp (disch := omega) only [rowSum_shift_out ok.rJc, rowSum_shift_out ok.rJd,
    rowSum_shift_out (offdiag_inRange ok.rH), rowSum_shift_out (swap_inRange ok.rH),
    rowSum_shift_out (swap_inRange ok.rJc), rowSum_shift_out (swap_inRange ok.rJd),
    rowSum_shift_in ok.rJc, rowSum_shift_in ok.rJd,
    rowSum_shift_in (offdiag_inRange ok.rH), rowSum_shift_in (swap_inRange ok.rH),
    rowSum_shift_in (swap_inRange ok.rJc), rowSum_shift_in (swap_inRange ok.rJd),
    rowSum_diag_out, rowSum_diag_in,
    rowSum_rowPat_out, rowSum_selDiag_out, rowSum_colPat_out,  add_zero, zero_add,
    Nat.sub_zero, Nat.add_sub_cancel_left, at1_fin, one_mul]
  rw [rowSum_dense ok.rJc]
  ring


theorem row_yd (i : Fin m) :
    rowSum (fullLists b c S it hx hd dl).flatten x (n + mc + i) =
      (∑ j : Fin n, entry S.Jd i j * x j) - x (st2 n mc m + i) - dl.cd i * x (n + mc + i) := by
  have e2 : st2 n mc m = n + mc + m := rfl
  have e3 : st3 n mc m = st2 n mc m + m := rfl
  have e4 : st4 c n mc m = st3 n mc m + c.ndl + c.ndu + c.nxl + c.nxu := rfl
  have hi := i.2
  have h1 := hc.ndl
  have h2 := hc.ndu
  have h3 := hc.nxl
  have h4 := hc.nxu
  rw [rowSum_full]
  simp only [fullLists, List.map_cons, List.map_nil, List.sum_cons, List.sum_nil]
  simp (disch := omega) only [rowSum_shift_out ok.rJc, rowSum_shift_out ok.rJd,
    rowSum_shift_out (offdiag_inRange ok.rH), rowSum_shift_out (swap_inRange ok.rH),
    rowSum_shift_out (swap_inRange ok.rJc), rowSum_shift_out (swap_inRange ok.rJd),
    rowSum_shift_in ok.rJc, rowSum_shift_in ok.rJd,
    rowSum_shift_in (offdiag_inRange ok.rH), rowSum_shift_in (swap_inRange ok.rH),
    rowSum_shift_in (swap_inRange ok.rJc), rowSum_shift_in (swap_inRange ok.rJd),
    rowSum_diag_out, rowSum_diag_in,
    rowSum_rowPat_out, rowSum_selDiag_out, rowSum_colPat_out,  add_zero, zero_add,
    Nat.sub_zero, Nat.add_sub_cancel_left, at1_fin, one_mul]
  rw [rowSum_dense ok.rJd]
  ring


theorem row_d (i : Fin m) :
    rowSum (fullLists b c S it hx hd dl).flatten x (st2 n mc m + i) =
      hd i * x (st2 n mc m + i) - x (n + mc + i)
        - (if b.idl i = 1 then x (st3 n mc m + rank b.idl i) else 0)
        + (if b.idu i = 1 then x (st3 n mc m + c.ndl + rank b.idu i) else 0) := by
  have e2 : st2 n mc m = n + mc + m := rfl
  have e3 : st3 n mc m = st2 n mc m + m := rfl
  have e4 : st4 c n mc m = st3 n mc m + c.ndl + c.ndu + c.nxl + c.nxu := rfl
  have hi := i.2
  have h1 := hc.ndl
  have h2 := hc.ndu
  have h3 := hc.nxl
  have h4 := hc.nxu
  rw [rowSum_full]
  simp only [fullLists, List.map_cons, List.map_nil, List.sum_cons, List.sum_nil]
  simp (disch := omega) only [rowSum_shift_out ok.rJc, rowSum_shift_out ok.rJd,
    rowSum_shift_out (offdiag_inRange ok.rH), rowSum_shift_out (swap_inRange ok.rH),
    rowSum_shift_out (swap_inRange ok.rJc), rowSum_shift_out (swap_inRange ok.rJd),
    rowSum_shift_in ok.rJc, rowSum_shift_in ok.rJd,
    rowSum_shift_in (offdiag_inRange ok.rH), rowSum_shift_in (swap_inRange ok.rH),
    rowSum_shift_in (swap_inRange ok.rJc), rowSum_shift_in (swap_inRange ok.rJd),
    rowSum_diag_out, rowSum_diag_in,
    rowSum_rowPat_out, rowSum_selDiag_out, rowSum_colPat_out, 
    rowSum_colPat (ix := b.idl) i, rowSum_colPat (ix := b.idu) i, add_zero, zero_add,
    Nat.sub_zero, Nat.add_sub_cancel_left, at1_fin, one_mul]
  by_cases a1 : b.idl i = 1 <;> by_cases a2 : b.idu i = 1 <;> simp only [a1, a2, if_true, if_false] <;>
    ring


theorem row_dl (i : Fin m) (ha : b.idl i = 1) :
    rowSum (fullLists b c S it hx hd dl).flatten x (st3 n mc m + rank b.idl i) =
      x (st4 c n mc m + rank b.idl i) - x (st2 n mc m + i) := by
  have e2 : st2 n mc m = n + mc + m := rfl
  have e3 : st3 n mc m = st2 n mc m + m := rfl
  have e4 : st4 c n mc m = st3 n mc m + c.ndl + c.ndu + c.nxl + c.nxu := rfl
  have hi := i.2
  have h1 := hc.ndl
  have h2 := hc.ndu
  have h3 := hc.nxl
  have h4 := hc.nxu
  have hr := rank_lt_count b.idl ha
  rw [rowSum_full]
  simp only [fullLists, List.map_cons, List.map_nil, List.sum_cons, List.sum_nil]
  simp (disch := omega) only [rowSum_shift_out ok.rJc, rowSum_shift_out ok.rJd,
    rowSum_shift_out (offdiag_inRange ok.rH), rowSum_shift_out (swap_inRange ok.rH),
    rowSum_shift_out (swap_inRange ok.rJc), rowSum_shift_out (swap_inRange ok.rJd),
    rowSum_shift_in ok.rJc, rowSum_shift_in ok.rJd,
    rowSum_shift_in (offdiag_inRange ok.rH), rowSum_shift_in (swap_inRange ok.rH),
    rowSum_shift_in (swap_inRange ok.rJc), rowSum_shift_in (swap_inRange ok.rJd),
    rowSum_diag_out, rowSum_diag_in,
    rowSum_rowPat_out, rowSum_selDiag_out, rowSum_colPat_out, 
    rowSum_rowPat ha, add_zero, zero_add,
    Nat.sub_zero, Nat.add_sub_cancel_left, at1_fin, one_mul]
  ring


theorem row_du (i : Fin m) (ha : b.idu i = 1) :
    rowSum (fullLists b c S it hx hd dl).flatten x (st3 n mc m + c.ndl + rank b.idu i) =
      x (st4 c n mc m + c.ndl + rank b.idu i) + x (st2 n mc m + i) := by
  have e2 : st2 n mc m = n + mc + m := rfl
  have e3 : st3 n mc m = st2 n mc m + m := rfl
  have e4 : st4 c n mc m = st3 n mc m + c.ndl + c.ndu + c.nxl + c.nxu := rfl
  have hi := i.2
  have h1 := hc.ndl
  have h2 := hc.ndu
  have h3 := hc.nxl
  have h4 := hc.nxu
  have hr := rank_lt_count b.idu ha
  rw [rowSum_full]
  simp only [fullLists, List.map_cons, List.map_nil, List.sum_cons, List.sum_nil]
  simp (disch := omega) only [rowSum_shift_out ok.rJc, rowSum_shift_out ok.rJd,
    rowSum_shift_out (offdiag_inRange ok.rH), rowSum_shift_out (swap_inRange ok.rH),
    rowSum_shift_out (swap_inRange ok.rJc), rowSum_shift_out (swap_inRange ok.rJd),
    rowSum_shift_in ok.rJc, rowSum_shift_in ok.rJd,
    rowSum_shift_in (offdiag_inRange ok.rH), rowSum_shift_in (swap_inRange ok.rH),
    rowSum_shift_in (swap_inRange ok.rJc), rowSum_shift_in (swap_inRange ok.rJd),
    rowSum_diag_out, rowSum_diag_in,
    rowSum_rowPat_out, rowSum_selDiag_out, rowSum_colPat_out, 
    rowSum_rowPat ha, add_zero, zero_add,
    Nat.sub_zero, Nat.add_sub_cancel_left, at1_fin, one_mul]
  ring


theorem row_xl (i : Fin n) (ha : b.ixl i = 1) :
    rowSum (fullLists b c S it hx hd dl).flatten x (st3 n mc m + c.ndl + c.ndu + rank b.ixl i) =
      x (st4 c n mc m + c.ndl + c.ndu + rank b.ixl i) - x (i) := by
  have e2 : st2 n mc m = n + mc + m := rfl
  have e3 : st3 n mc m = st2 n mc m + m := rfl
  have e4 : st4 c n mc m = st3 n mc m + c.ndl + c.ndu + c.nxl + c.nxu := rfl
  have hi := i.2
  have h1 := hc.ndl
  have h2 := hc.ndu
  have h3 := hc.nxl
  have h4 := hc.nxu
  have hr := rank_lt_count b.ixl ha
  rw [rowSum_full]
  simp only [fullLists, List.map_cons, List.map_nil, List.sum_cons, List.sum_nil]
  simp (disch := omega) only [rowSum_shift_out ok.rJc, rowSum_shift_out ok.rJd,
    rowSum_shift_out (offdiag_inRange ok.rH), rowSum_shift_out (swap_inRange ok.rH),
    rowSum_shift_out (swap_inRange ok.rJc), rowSum_shift_out (swap_inRange ok.rJd),
    rowSum_shift_in ok.rJc, rowSum_shift_in ok.rJd,
    rowSum_shift_in (offdiag_inRange ok.rH), rowSum_shift_in (swap_inRange ok.rH),
    rowSum_shift_in (swap_inRange ok.rJc), rowSum_shift_in (swap_inRange ok.rJd),
    rowSum_diag_out, rowSum_diag_in,
    rowSum_rowPat_out, rowSum_selDiag_out, rowSum_colPat_out, 
    rowSum_rowPat ha, add_zero, zero_add,
    Nat.sub_zero, Nat.add_sub_cancel_left, at1_fin, one_mul]
  ring


theorem row_xu (i : Fin n) (ha : b.ixu i = 1) :
    rowSum (fullLists b c S it hx hd dl).flatten x (st3 n mc m + c.ndl + c.ndu + c.nxl + rank b.ixu i) =
      x (st4 c n mc m + c.ndl + c.ndu + c.nxl + rank b.ixu i) + x (i) := by
  have e2 : st2 n mc m = n + mc + m := rfl
  have e3 : st3 n mc m = st2 n mc m + m := rfl
  have e4 : st4 c n mc m = st3 n mc m + c.ndl + c.ndu + c.nxl + c.nxu := rfl
  have hi := i.2
  have h1 := hc.ndl
  have h2 := hc.ndu
  have h3 := hc.nxl
  have h4 := hc.nxu
  have hr := rank_lt_count b.ixu ha
  rw [rowSum_full]
  simp only [fullLists, List.map_cons, List.map_nil, List.sum_cons, List.sum_nil]
  simp (disch := omega) only [rowSum_shift_out ok.rJc, rowSum_shift_out ok.rJd,
    rowSum_shift_out (offdiag_inRange ok.rH), rowSum_shift_out (swap_inRange ok.rH),
    rowSum_shift_out (swap_inRange ok.rJc), rowSum_shift_out (swap_inRange ok.rJd),
    rowSum_shift_in ok.rJc, rowSum_shift_in ok.rJd,
    rowSum_shift_in (offdiag_inRange ok.rH), rowSum_shift_in (swap_inRange ok.rH),
    rowSum_shift_in (swap_inRange ok.rJc), rowSum_shift_in (swap_inRange ok.rJd),
    rowSum_diag_out, rowSum_diag_in,
    rowSum_rowPat_out, rowSum_selDiag_out, rowSum_colPat_out, 
    rowSum_rowPat ha, add_zero, zero_add,
    Nat.sub_zero, Nat.add_sub_cancel_left, at1_fin, one_mul]
  ring


theorem row_sdl (i : Fin m) (ha : b.idl i = 1) :
    rowSum (fullLists b c S it hx hd dl).flatten x (st4 c n mc m + rank b.idl i) =
      it.sdl i * x (st3 n mc m + rank b.idl i) + it.vl i * x (st4 c n mc m + rank b.idl i) := by
  have e2 : st2 n mc m = n + mc + m := rfl
  have e3 : st3 n mc m = st2 n mc m + m := rfl
  have e4 : st4 c n mc m = st3 n mc m + c.ndl + c.ndu + c.nxl + c.nxu := rfl
  have hi := i.2
  have h1 := hc.ndl
  have h2 := hc.ndu
  have h3 := hc.nxl
  have h4 := hc.nxu
  have hr := rank_lt_count b.idl ha
  rw [rowSum_full]
  simp only [fullLists, List.map_cons, List.map_nil, List.sum_cons, List.sum_nil]
  simp (disch := omega) only [rowSum_shift_out ok.rJc, rowSum_shift_out ok.rJd,
    rowSum_shift_out (offdiag_inRange ok.rH), rowSum_shift_out (swap_inRange ok.rH),
    rowSum_shift_out (swap_inRange ok.rJc), rowSum_shift_out (swap_inRange ok.rJd),
    rowSum_shift_in ok.rJc, rowSum_shift_in ok.rJd,
    rowSum_shift_in (offdiag_inRange ok.rH), rowSum_shift_in (swap_inRange ok.rH),
    rowSum_shift_in (swap_inRange ok.rJc), rowSum_shift_in (swap_inRange ok.rJd),
    rowSum_diag_out, rowSum_diag_in,
    rowSum_rowPat_out, rowSum_selDiag_out, rowSum_colPat_out, 
    rowSum_selDiag ha, add_zero, zero_add,
    Nat.sub_zero, Nat.add_sub_cancel_left, at1_fin, one_mul]


theorem row_sdu (i : Fin m) (ha : b.idu i = 1) :
    rowSum (fullLists b c S it hx hd dl).flatten x (st4 c n mc m + c.ndl + rank b.idu i) =
      it.sdu i * x (st3 n mc m + c.ndl + rank b.idu i) + it.vu i * x (st4 c n mc m + c.ndl + rank b.idu i) := by
  have e2 : st2 n mc m = n + mc + m := rfl
  have e3 : st3 n mc m = st2 n mc m + m := rfl
  have e4 : st4 c n mc m = st3 n mc m + c.ndl + c.ndu + c.nxl + c.nxu := rfl
  have hi := i.2
  have h1 := hc.ndl
  have h2 := hc.ndu
  have h3 := hc.nxl
  have h4 := hc.nxu
  have hr := rank_lt_count b.idu ha
  rw [rowSum_full]
  simp only [fullLists, List.map_cons, List.map_nil, List.sum_cons, List.sum_nil]
  simp (disch := omega) only [rowSum_shift_out ok.rJc, rowSum_shift_out ok.rJd,
    rowSum_shift_out (offdiag_inRange ok.rH), rowSum_shift_out (swap_inRange ok.rH),
    rowSum_shift_out (swap_inRange ok.rJc), rowSum_shift_out (swap_inRange ok.rJd),
    rowSum_shift_in ok.rJc, rowSum_shift_in ok.rJd,
    rowSum_shift_in (offdiag_inRange ok.rH), rowSum_shift_in (swap_inRange ok.rH),
    rowSum_shift_in (swap_inRange ok.rJc), rowSum_shift_in (swap_inRange ok.rJd),
    rowSum_diag_out, rowSum_diag_in,
    rowSum_rowPat_out, rowSum_selDiag_out, rowSum_colPat_out, 
    rowSum_selDiag ha, add_zero, zero_add,
    Nat.sub_zero, Nat.add_sub_cancel_left, at1_fin, one_mul]


theorem row_sxl (i : Fin n) (ha : b.ixl i = 1) :
    rowSum (fullLists b c S it hx hd dl).flatten x (st4 c n mc m + c.ndl + c.ndu + rank b.ixl i) =
      it.sxl i * x (st3 n mc m + c.ndl + c.ndu + rank b.ixl i) + it.zl i * x (st4 c n mc m + c.ndl + c.ndu + rank b.ixl i) := by
  have e2 : st2 n mc m = n + mc + m := rfl
  have e3 : st3 n mc m = st2 n mc m + m := rfl
  have e4 : st4 c n mc m = st3 n mc m + c.ndl + c.ndu + c.nxl + c.nxu := rfl
  have hi := i.2
  have h1 := hc.ndl
  have h2 := hc.ndu
  have h3 := hc.nxl
  have h4 := hc.nxu
  have hr := rank_lt_count b.ixl ha
  rw [rowSum_full]
  simp only [fullLists, List.map_cons, List.map_nil, List.sum_cons, List.sum_nil]
  simp (disch := omega) only [rowSum_shift_out ok.rJc, rowSum_shift_out ok.rJd,
    rowSum_shift_out (offdiag_inRange ok.rH), rowSum_shift_out (swap_inRange ok.rH),
    rowSum_shift_out (swap_inRange ok.rJc), rowSum_shift_out (swap_inRange ok.rJd),
    rowSum_shift_in ok.rJc, rowSum_shift_in ok.rJd,
    rowSum_shift_in (offdiag_inRange ok.rH), rowSum_shift_in (swap_inRange ok.rH),
    rowSum_shift_in (swap_inRange ok.rJc), rowSum_shift_in (swap_inRange ok.rJd),
    rowSum_diag_out, rowSum_diag_in,
    rowSum_rowPat_out, rowSum_selDiag_out, rowSum_colPat_out, 
    rowSum_selDiag ha, add_zero, zero_add,
    Nat.sub_zero, Nat.add_sub_cancel_left, at1_fin, one_mul]


theorem row_sxu (i : Fin n) (ha : b.ixu i = 1) :
    rowSum (fullLists b c S it hx hd dl).flatten x (st4 c n mc m + c.ndl + c.ndu + c.nxl + rank b.ixu i) =
      it.sxu i * x (st3 n mc m + c.ndl + c.ndu + c.nxl + rank b.ixu i) + it.zu i * x (st4 c n mc m + c.ndl + c.ndu + c.nxl + rank b.ixu i) := by
  have e2 : st2 n mc m = n + mc + m := rfl
  have e3 : st3 n mc m = st2 n mc m + m := rfl
  have e4 : st4 c n mc m = st3 n mc m + c.ndl + c.ndu + c.nxl + c.nxu := rfl
  have hi := i.2
  have h1 := hc.ndl
  have h2 := hc.ndu
  have h3 := hc.nxl
  have h4 := hc.nxu
  have hr := rank_lt_count b.ixu ha
  rw [rowSum_full]
  simp only [fullLists, List.map_cons, List.map_nil, List.sum_cons, List.sum_nil]
  simp (disch := omega) only [rowSum_shift_out ok.rJc, rowSum_shift_out ok.rJd,
    rowSum_shift_out (offdiag_inRange ok.rH), rowSum_shift_out (swap_inRange ok.rH),
    rowSum_shift_out (swap_inRange ok.rJc), rowSum_shift_out (swap_inRange ok.rJd),
    rowSum_shift_in ok.rJc, rowSum_shift_in ok.rJd,
    rowSum_shift_in (offdiag_inRange ok.rH), rowSum_shift_in (swap_inRange ok.rH),
    rowSum_shift_in (swap_inRange ok.rJc), rowSum_shift_in (swap_inRange ok.rJd),
    rowSum_diag_out, rowSum_diag_in,
    rowSum_rowPat_out, rowSum_selDiag_out, rowSum_colPat_out, 
    rowSum_selDiag ha, add_zero, zero_add,
    Nat.sub_zero, Nat.add_sub_cancel_left, at1_fin, one_mul]

end rows

/-! ## Packing and unpacking -/

theorem at1_lt {N : ℕ} (v : RVec K N) {k : ℕ} (h : k < N) : at1 v k = v ⟨k, h⟩ := by
  unfold at1; rw [dif_pos h]

theorem write_block {N : ℕ} (x : RVec K p) (dest : RVec K N) (start : ℕ) (h : start + p ≤ N) :
    ∃ y, copyToStartingGlobal x dest (start : ℤ) = some y ∧
      (∀ i : Fin p, at1 y (start + i) = x i) ∧ ∀ k < start, at1 y k = at1 dest k := by
  obtain ⟨y, h1, h2, h3⟩ := (C56_copyToStartingGlobal x dest start).1 h
  refine ⟨y, h1, fun i => ?_, fun k hk => ?_⟩
  · rw [at1_lt y (by have := i.2; omega)]
    exact h2 _ i i i.2 rfl (by omega)
  · rw [at1_lt y (by omega), at1_lt dest (by omega)]
    exact h3 _ (Or.inl hk)

theorem pack_block {N : ℕ} (x sel : RVec K p) (dest : RVec K N) (start : ℕ)
    (h : start + count sel ≤ N) :
    ∃ y, packTo x dest (start : ℤ) sel = some y ∧
      (∀ i, sel i = 1 → at1 y (start + rank sel i) = x i) ∧ ∀ k < start, at1 y k = at1 dest k := by
  obtain ⟨y, h1, h2, h3⟩ := (C56_pack x dest start sel).1 h
  refine ⟨y, h1, fun i hi => ?_, fun k hk => ?_⟩
  · rw [at1_lt y (by have := rank_lt_count sel hi; omega)]
    exact h2 i _ hi rfl
  · rw [at1_lt y (by omega), at1_lt dest (by omega)]
    exact h3 _ (Or.inl hk)

theorem read_block {N : ℕ} (x : RVec K N) (dest : RVec K p) (start : ℕ) (h : start + p ≤ N) :
    startingAtCopyTo x (start : ℤ) dest ((0 : ℕ) : ℤ) (-1) = some fun i : Fin p => at1 x (start + i) := by
  obtain ⟨y, h1, h2, -⟩ := C56_startingAtCopyTo_all x start dest 0 (by omega) (by omega)
  rw [h1]
  congr 1
  funext i
  have := i.2
  rw [at1_lt x (by omega)]
  exact h2 i _ i (by omega) (by omega) rfl

theorem unpack_block {N : ℕ} (x : RVec K N) (dest sel : RVec K p) (start : ℕ)
    (h : start + count sel ≤ N) :
    unpackTo x (start : ℤ) dest 0 sel (-1) =
      some fun i => if sel i = 1 then at1 x (start + rank sel i) else dest i := by
  obtain ⟨y, h1, h2, h3⟩ := C56_unpack x start dest sel (by omega)
  rw [h1]
  congr 1
  funext i
  by_cases hi : sel i = 1
  · have := rank_lt_count sel hi
    rw [if_pos hi, at1_lt x (by omega)]
    exact h2 i _ hi rfl
  · rw [if_neg hi]
    exact h3 i (Or.inl hi)

/-- What the packed right-hand side holds. -/
structure Packed (r : Resid K n mc m) (f : ℕ → K) : Prop where
  rx : ∀ i : Fin n, f i = r.rx i
  ryc : ∀ i : Fin mc, f (n + i) = r.ryc i
  ryd : ∀ i : Fin m, f (n + mc + i) = r.ryd i
  rd : ∀ i : Fin m, f (st2 n mc m + i) = r.rd i
  rdl : ∀ i, b.idl i = 1 → f (st3 n mc m + rank b.idl i) = r.rdl i
  rdu : ∀ i, b.idu i = 1 → f (st3 n mc m + c.ndl + rank b.idu i) = r.rdu i
  rxl : ∀ i, b.ixl i = 1 → f (st3 n mc m + c.ndl + c.ndu + rank b.ixl i) = r.rxl i
  rxu : ∀ i, b.ixu i = 1 → f (st3 n mc m + c.ndl + c.ndu + c.nxl + rank b.ixu i) = r.rxu i
  rsvl : ∀ i, b.idl i = 1 → f (st4 c n mc m + rank b.idl i) = r.rsvl i
  rsvu : ∀ i, b.idu i = 1 → f (st4 c n mc m + c.ndl + rank b.idu i) = r.rsvu i
  rszl : ∀ i, b.ixl i = 1 → f (st4 c n mc m + c.ndl + c.ndu + rank b.ixl i) = r.rszl i
  rszu : ∀ i, b.ixu i = 1 → f (st4 c n mc m + c.ndl + c.ndu + c.nxl + rank b.ixu i) = r.rszu i

theorem fullRhs_spec (hc : c.Ok b) (r : Resid K n mc m) (rhs0 : RVec K (fullN c n mc m)) :
    ∃ rhs, fullRhs b c r rhs0 = some rhs ∧ Packed b c r (at1 rhs) := by
  have eN : fullN c n mc m = n + mc + m + m + c.ndl + c.ndu + c.nxl + c.nxu + c.ndl + c.ndu + c.nxl
    + c.nxu := rfl
  have e2 : st2 n mc m = n + mc + m := rfl
  have e3 : st3 n mc m = n + mc + m + m := rfl
  have e4 : st4 c n mc m = n + mc + m + m + c.ndl + c.ndu + c.nxl + c.nxu := rfl
  have h1 := hc.ndl
  have h2 := hc.ndu
  have h3 := hc.nxl
  have h4 := hc.nxu
  obtain ⟨b1, p1, v1, -⟩ := write_block r.rx rhs0 0 (by omega)
  obtain ⟨b2, p2, v2, k2⟩ := write_block r.ryc b1 n (by omega)
  obtain ⟨b3, p3, v3, k3⟩ := write_block r.ryd b2 (n + mc) (by omega)
  obtain ⟨b4, p4, v4, k4⟩ := write_block r.rd b3 (n + mc + m) (by omega)
  obtain ⟨b5, p5, v5, k5⟩ := pack_block r.rdl b.idl b4 (n + mc + m + m) (by omega)
  obtain ⟨b6, p6, v6, k6⟩ := pack_block r.rdu b.idu b5 (n + mc + m + m + c.ndl) (by omega)
  obtain ⟨b7, p7, v7, k7⟩ := pack_block r.rxl b.ixl b6 (n + mc + m + m + c.ndl + c.ndu) (by omega)
  obtain ⟨b8, p8, v8, k8⟩ := pack_block r.rxu b.ixu b7 (n + mc + m + m + c.ndl + c.ndu + c.nxl)
    (by omega)
  obtain ⟨b9, p9, v9, k9⟩ := pack_block r.rsvl b.idl b8
    (n + mc + m + m + c.ndl + c.ndu + c.nxl + c.nxu) (by omega)
  obtain ⟨b10, p10, v10, k10⟩ := pack_block r.rsvu b.idu b9
    (n + mc + m + m + c.ndl + c.ndu + c.nxl + c.nxu + c.ndl) (by omega)
  obtain ⟨b11, p11, v11, k11⟩ := pack_block r.rszl b.ixl b10
    (n + mc + m + m + c.ndl + c.ndu + c.nxl + c.nxu + c.ndl + c.ndu) (by omega)
  obtain ⟨b12, p12, v12, k12⟩ := pack_block r.rszu b.ixu b11
    (n + mc + m + m + c.ndl + c.ndu + c.nxl + c.nxu + c.ndl + c.ndu + c.nxl) (by omega)
  refine ⟨b12, ?_, ?_⟩
  · unfold fullRhs
    simp only [p1, p2, p3, p4, p5, p6, p7, p8, p9, p10, p11, p12, Option.bind_eq_bind,
      Option.bind_some]
  have q11 : ∀ k < _, at1 b12 k = at1 b11 k := k12
  have q10 : ∀ k < _, at1 b12 k = at1 b10 k := fun k hk => (q11 k (by omega)).trans (k11 k hk)
  have q9 : ∀ k < _, at1 b12 k = at1 b9 k := fun k hk => (q10 k (by omega)).trans (k10 k hk)
  have q8 : ∀ k < _, at1 b12 k = at1 b8 k := fun k hk => (q9 k (by omega)).trans (k9 k hk)
  have q7 : ∀ k < _, at1 b12 k = at1 b7 k := fun k hk => (q8 k (by omega)).trans (k8 k hk)
  have q6 : ∀ k < _, at1 b12 k = at1 b6 k := fun k hk => (q7 k (by omega)).trans (k7 k hk)
  have q5 : ∀ k < _, at1 b12 k = at1 b5 k := fun k hk => (q6 k (by omega)).trans (k6 k hk)
  have q4 : ∀ k < _, at1 b12 k = at1 b4 k := fun k hk => (q5 k (by omega)).trans (k5 k hk)
  have q3 : ∀ k < _, at1 b12 k = at1 b3 k := fun k hk => (q4 k (by omega)).trans (k4 k hk)
  have q2 : ∀ k < _, at1 b12 k = at1 b2 k := fun k hk => (q3 k (by omega)).trans (k3 k hk)
  have q1 : ∀ k < _, at1 b12 k = at1 b1 k := fun k hk => (q2 k (by omega)).trans (k2 k hk)
  constructor
  · intro i
    have := v1 i
    rw [Nat.zero_add] at this
    exact (q1 _ i.2).trans this
  · intro i; exact (q2 _ (by have := i.2; omega)).trans (v2 i)
  · intro i; exact (q3 _ (by have := i.2; omega)).trans (v3 i)
  · intro i; exact (q4 _ (by have := i.2; omega)).trans (v4 i)
  · intro i hi; exact (q5 _ (by have := rank_lt_count _ hi; omega)).trans (v5 i hi)
  · intro i hi; exact (q6 _ (by have := rank_lt_count _ hi; omega)).trans (v6 i hi)
  · intro i hi; exact (q7 _ (by have := rank_lt_count _ hi; omega)).trans (v7 i hi)
  · intro i hi; exact (q8 _ (by have := rank_lt_count _ hi; omega)).trans (v8 i hi)
  · intro i hi; exact (q9 _ (by have := rank_lt_count _ hi; omega)).trans (v9 i hi)
  · intro i hi; exact (q10 _ (by have := rank_lt_count _ hi; omega)).trans (v10 i hi)
  · intro i hi; exact (q11 _ (by have := rank_lt_count _ hi; omega)).trans (v11 i hi)
  · intro i hi; exact v12 i hi

/-- The direction read out of a solution vector. -/
def readDir (x : ℕ → K) (dir : It K n mc m) : It K n mc m where
  x := fun i => x i
  yc := fun i => x (n + i)
  yd := fun i => x (n + mc + i)
  d := fun i => x (st2 n mc m + i)
  vl := fun i => if b.idl i = 1 then x (st3 n mc m + rank b.idl i) else dir.vl i
  vu := fun i => if b.idu i = 1 then x (st3 n mc m + c.ndl + rank b.idu i) else dir.vu i
  zl := fun i => if b.ixl i = 1 then x (st3 n mc m + c.ndl + c.ndu + rank b.ixl i) else dir.zl i
  zu := fun i => if b.ixu i = 1 then x (st3 n mc m + c.ndl + c.ndu + c.nxl + rank b.ixu i)
    else dir.zu i
  sdl := fun i => if b.idl i = 1 then x (st4 c n mc m + rank b.idl i) else dir.sdl i
  sdu := fun i => if b.idu i = 1 then x (st4 c n mc m + c.ndl + rank b.idu i) else dir.sdu i
  sxl := fun i => if b.ixl i = 1 then x (st4 c n mc m + c.ndl + c.ndu + rank b.ixl i) else dir.sxl i
  sxu := fun i => if b.ixu i = 1 then x (st4 c n mc m + c.ndl + c.ndu + c.nxl + rank b.ixu i)
    else dir.sxu i

theorem fullUnpack_spec (hc : c.Ok b) (x : RVec K (fullN c n mc m)) (dir : It K n mc m) :
    fullUnpack b c x dir = some (readDir b c (at1 x) dir) := by
  have eN : fullN c n mc m = n + mc + m + m + c.ndl + c.ndu + c.nxl + c.nxu + c.ndl + c.ndu + c.nxl
    + c.nxu := rfl
  have h1 := hc.ndl
  have h2 := hc.ndu
  have h3 := hc.nxl
  have h4 := hc.nxu
  unfold fullUnpack
  rw [read_block x dir.x 0 (by omega), read_block x dir.yc n (by omega),
    read_block x dir.yd (n + mc) (by omega), read_block x dir.d (n + mc + m) (by omega),
    unpack_block x dir.vl b.idl _ (by omega), unpack_block x dir.vu b.idu _ (by omega),
    unpack_block x dir.zl b.ixl _ (by omega), unpack_block x dir.zu b.ixu _ (by omega),
    unpack_block x dir.sdl b.idl _ (by omega), unpack_block x dir.sdu b.idu _ (by omega),
    unpack_block x dir.sxl b.ixl _ (by omega), unpack_block x dir.sxu b.ixu _ (by omega)]
  simp only [Option.bind_eq_bind, Option.bind_some, Nat.zero_add]
  rfl

/-- The rows of the matrix give the Newton equations. -/
theorem newton_of_rows (hc : c.Ok b) (hp : Patterns b) (ok : S.Ok n mc m) (r : Resid K n mc m)
    (dir : It K n mc m) (hz : OffZero b dir) (x f : ℕ → K) (hf : Packed b c r f)
    (hrow : ∀ k < fullN c n mc m, rowSum (fullLists b c S it hx hd dl).flatten x k = f k) :
    FullNewton b (S.toMats n mc m) { dl with wx := hx, wd := hd } it r (readDir b c x dir) := by
  have eN : fullN c n mc m = n + mc + m + m + c.ndl + c.ndu + c.nxl + c.nxu + c.ndl + c.ndu + c.nxl
    + c.nxu := rfl
  have e2 : st2 n mc m = n + mc + m := rfl
  have e3 : st3 n mc m = n + mc + m + m := rfl
  have e4 : st4 c n mc m = n + mc + m + m + c.ndl + c.ndu + c.nxl + c.nxu := rfl
  have h1 := hc.ndl
  have h2 := hc.ndu
  have h3 := hc.nxl
  have h4 := hc.nxu
  constructor
  · intro i
    have hr := hrow i (by have := i.2; omega)
    rw [row_x b c S it hx hd dl hc ok x i, hf.rx i] at hr
    rw [← hr]
    simp only [readDir, SpMats.toMats, dense]
    rcases hp.ixl i with a1 | a1 <;> rcases hp.ixu i with a2 | a2 <;>
      simp only [a1, a2, if_true, zero_ne_one, if_false] <;>
      first
      | (rw [(hz.xl i a1).2, (hz.xu i a2).2])
      | (rw [(hz.xl i a1).2])
      | (rw [(hz.xu i a2).2])
  · intro i
    have hr := hrow (st2 n mc m + i) (by have := i.2; omega)
    rw [row_d b c S it hx hd dl hc ok x i, hf.rd i] at hr
    rw [← hr]
    simp only [readDir]
    rcases hp.idl i with a1 | a1 <;> rcases hp.idu i with a2 | a2 <;>
      simp only [a1, a2, if_true, zero_ne_one, if_false] <;>
      first
      | (rw [(hz.dl i a1).2, (hz.du i a2).2])
      | (rw [(hz.dl i a1).2])
      | (rw [(hz.du i a2).2])
  · intro i
    have hr := hrow (n + i) (by have := i.2; omega)
    rw [row_yc b c S it hx hd dl hc ok x i, hf.ryc i] at hr
    rw [← hr]
    rfl
  · intro i
    have hr := hrow (n + mc + i) (by have := i.2; omega)
    rw [row_yd b c S it hx hd dl hc ok x i, hf.ryd i] at hr
    rw [← hr]
    rfl
  · intro i ha
    have hr := hrow _ (by have := rank_lt_count _ ha; omega :
      st3 n mc m + c.ndl + c.ndu + rank b.ixl i < fullN c n mc m)
    rw [row_xl b c S it hx hd dl hc ok x i ha, hf.rxl i ha] at hr
    rw [← hr]
    simp only [readDir, if_pos ha]
  · intro i ha
    have hr := hrow _ (by have := rank_lt_count _ ha; omega :
      st3 n mc m + c.ndl + c.ndu + c.nxl + rank b.ixu i < fullN c n mc m)
    rw [row_xu b c S it hx hd dl hc ok x i ha, hf.rxu i ha] at hr
    rw [← hr]
    simp only [readDir, if_pos ha]
  · intro i ha
    have hr := hrow _ (by have := rank_lt_count _ ha; omega :
      st3 n mc m + rank b.idl i < fullN c n mc m)
    rw [row_dl b c S it hx hd dl hc ok x i ha, hf.rdl i ha] at hr
    rw [← hr]
    simp only [readDir, if_pos ha]
  · intro i ha
    have hr := hrow _ (by have := rank_lt_count _ ha; omega :
      st3 n mc m + c.ndl + rank b.idu i < fullN c n mc m)
    rw [row_du b c S it hx hd dl hc ok x i ha, hf.rdu i ha] at hr
    rw [← hr]
    simp only [readDir, if_pos ha]
  · intro i ha
    have hr := hrow _ (by have := rank_lt_count _ ha; omega :
      st4 c n mc m + c.ndl + c.ndu + rank b.ixl i < fullN c n mc m)
    rw [row_sxl b c S it hx hd dl hc ok x i ha, hf.rszl i ha] at hr
    rw [← hr]
    simp only [readDir, if_pos ha]
    ring
  · intro i ha
    have hr := hrow _ (by have := rank_lt_count _ ha; omega :
      st4 c n mc m + c.ndl + c.ndu + c.nxl + rank b.ixu i < fullN c n mc m)
    rw [row_sxu b c S it hx hd dl hc ok x i ha, hf.rszu i ha] at hr
    rw [← hr]
    simp only [readDir, if_pos ha]
    ring
  · intro i ha
    have hr := hrow _ (by have := rank_lt_count _ ha; omega :
      st4 c n mc m + rank b.idl i < fullN c n mc m)
    rw [row_sdl b c S it hx hd dl hc ok x i ha, hf.rsvl i ha] at hr
    rw [← hr]
    simp only [readDir, if_pos ha]
    ring
  · intro i ha
    have hr := hrow _ (by have := rank_lt_count _ ha; omega :
      st4 c n mc m + c.ndl + rank b.idu i < fullN c n mc m)
    rw [row_sdu b c S it hx hd dl hc ok x i ha, hf.rsvu i ha] at hr
    rw [← hr]
    simp only [readDir, if_pos ha]
    ring
  · intro i h0
    simp only [readDir, h0, zero_ne_one, if_false]
    exact hz.xl i h0
  · intro i h0
    simp only [readDir, h0, zero_ne_one, if_false]
    exact hz.xu i h0
  · intro i h0
    simp only [readDir, h0, zero_ne_one, if_false]
    exact hz.dl i h0
  · intro i h0
    simp only [readDir, h0, zero_ne_one, if_false]
    exact hz.du i h0

/-! ## C57 -/

theorem buildFull_eq (hp : Patterns b) (hc : c.Ok b) (hx0 : RVec K n) (hd0 : RVec K m)
    (st : Store K) :
    ∃ st', buildFull b c S it hx0 hd0 dl st = some (st', axpy hx0 1 dl.wx, axpy hd0 1 dl.wd) ∧
      toList st' (fullNnz c S n mc m) =
        (fullLists b c S it (axpy hx0 1 dl.wx) (axpy hd0 1 dl.wd) dl).flatten := by
  have hl := fullLists_length b c S it (axpy hx0 1 dl.wx) (axpy hd0 1 dl.wd) dl hp hc
  obtain ⟨st', h1, h2⟩ := runBlks_appends (fullBlks_appends b c S it (axpy hx0 1 dl.wx)
    (axpy hd0 1 dl.wd) dl hp hc (fullNnz c S n mc m)) st 0 (by omega)
  rw [hl, Nat.zero_add] at h1 h2
  refine ⟨st', ?_, ?_⟩
  · unfold buildFull
    simp only [h1, if_true]
  · rw [h2]
    simp [toList]

theorem sum_rows (es : List (Ent K)) (N : ℕ) (h : ∀ e ∈ es, e.c < N) (x : RVec K N) (k : ℕ) :
    ∑ j : Fin N, entry es k j * x j = rowSum es (at1 x) k := by
  rw [← sum_entry es N h (at1 x) k, Finset.sum_range]
  exact Finset.sum_congr rfl fun j _ => by rw [at1_fin]

theorem readDir_offZero (hz : OffZero b it) (x : ℕ → K) : OffZero b (readDir b c x it) := by
  constructor
  · intro i h0
    simp only [readDir, h0, zero_ne_one, if_false]
    exact hz.xl i h0
  · intro i h0
    simp only [readDir, h0, zero_ne_one, if_false]
    exact hz.xu i h0
  · intro i h0
    simp only [readDir, h0, zero_ne_one, if_false]
    exact hz.dl i h0
  · intro i h0
    simp only [readDir, h0, zero_ne_one, if_false]
    exact hz.du i h0

/-- The general statement: whatever `Hx_`, `Hd_` held before (`hx0`, `hd0`), the matrix is assembled
without a failed assertion, a direction is computed without a failed assertion or an access outside
the buffers whenever the linear solver answers, and it satisfies the Newton equations with the
perturbations `hx0 + delta_wx`, `hd0 + delta_wd` in place of `delta_wx`, `delta_wd`. -/
theorem full_general (hp : Patterns b) (hc : c.Ok b) (ok : S.Ok n mc m) (hx0 : RVec K n)
    (hd0 : RVec K m) (st : Store K) :
    ∃ st', buildFull b c S it hx0 hd0 dl st = some (st', axpy hx0 1 dl.wx, axpy hd0 1 dl.wd) ∧
      ∀ lin, NsSolves (fullN c n mc m) (toList st' (fullNnz c S n mc m)) lin →
      ∀ rhs0 r dir, OffZero b dir →
        ∃ ans dir', fullDirections b c lin rhs0 r dir = some (ans, dir') ∧ OffZero b dir' ∧
          (ans = false → dir' = dir) ∧
          (ans = true → FullNewton b (S.toMats n mc m)
            { dl with wx := axpy hx0 1 dl.wx, wd := axpy hd0 1 dl.wd } it r dir') := by
  obtain ⟨st', hb, hl⟩ := buildFull_eq b c S it dl hp hc hx0 hd0 st
  refine ⟨st', hb, ?_⟩
  intro lin hlin rhs0 r dir hz
  obtain ⟨rhs, hr, hpk⟩ := fullRhs_spec b c hc r rhs0
  unfold fullDirections
  rw [hr]
  simp only
  rcases hx : lin rhs with _ | x
  · exact ⟨false, dir, rfl, hz, fun _ => rfl, fun h => by simp at h⟩
  · simp only
    rw [fullUnpack_spec b c hc]
    refine ⟨true, _, rfl, readDir_offZero b c dir hz _, fun h => by simp at h, fun _ => ?_⟩
    refine newton_of_rows b c S it _ _ dl hc hp ok r dir hz (at1 x) (at1 rhs) hpk ?_
    intro k hk
    have h := hlin rhs x hx ⟨k, hk⟩
    rw [hl, sum_rows _ _ (fullLists_cols b c S it _ _ dl hc ok)] at h
    rw [at1_lt rhs hk]
    exact h

/-- **C57 (partial: first call, with zeroed `Hx_`, `Hd_`).** The matrix of the full system is assembled
without a failed assertion; the right-hand side is packed and the solution unpacked without an access
outside the buffers; if the linear solver solves the unsymmetric system exactly, the direction
satisfies all Newton equations with the perturbations in force, and is zero where there is no bound.
If the linear solver fails this is reported and the direction is not touched. Missing: `Hx_` and `Hd_`
are never cleared (and not initialized), see `C57_later_calls_false`. -/
theorem C57_newton_partial (hp : Patterns b) (hc : c.Ok b) (ok : S.Ok n mc m) (st : Store K) :
    ∃ st', buildFull b c S it (fun _ => 0) (fun _ => 0) dl st = some (st', dl.wx, dl.wd) ∧
      ∀ lin, NsSolves (fullN c n mc m) (toList st' (fullNnz c S n mc m)) lin →
      ∀ rhs0 r dir, OffZero b dir →
        ∃ ans dir', fullDirections b c lin rhs0 r dir = some (ans, dir') ∧ OffZero b dir' ∧
          (ans = false → dir' = dir) ∧
          (ans = true → FullNewton b (S.toMats n mc m) dl it r dir') := by
  have e1 : axpy (fun _ => (0 : K)) 1 dl.wx = dl.wx := by funext i; simp [axpy]
  have e2 : axpy (fun _ => (0 : K)) 1 dl.wd = dl.wd := by funext i; simp [axpy]
  obtain ⟨st', h1, h2⟩ := full_general b c S it dl hp hc ok (fun _ => 0) (fun _ => 0) st
  rw [e1, e2] at h1 h2
  exact ⟨st', h1, h2⟩

/-- **C57 refuted for later calls.** `Hx_`, `Hd_` keep the perturbations of the previous calls. After
one assembly with a nonzero primal perturbation, a direction computed from the next assembly that
moves the perturbed variable is not a Newton direction for the perturbations in force. -/
theorem C57_later_calls_false (hp : Patterns b) (hc : c.Ok b) (ok : S.Ok n mc m)
    (dl1 dl2 : Deltas K n mc m) (it1 it2 : It K n mc m) (st : Store K) :
    ∃ st1 st2 hx1 hd1 hx2 hd2,
      buildFull b c S it1 (fun _ => 0) (fun _ => 0) dl1 st = some (st1, hx1, hd1) ∧
      buildFull b c S it2 hx1 hd1 dl2 st1 = some (st2, hx2, hd2) ∧
      ∀ lin, NsSolves (fullN c n mc m) (toList st2 (fullNnz c S n mc m)) lin →
      ∀ rhs0 r dir dir', OffZero b dir → fullDirections b c lin rhs0 r dir = some (true, dir') →
      ((∃ i, dl1.wx i ≠ 0 ∧ dir'.x i ≠ 0) ∨ ∃ i, dl1.wd i ≠ 0 ∧ dir'.d i ≠ 0) →
        ¬ FullNewton b (S.toMats n mc m) dl2 it2 r dir' := by
  have e1 : axpy (fun _ => (0 : K)) 1 dl1.wx = dl1.wx := by funext i; simp [axpy]
  have e2 : axpy (fun _ => (0 : K)) 1 dl1.wd = dl1.wd := by funext i; simp [axpy]
  obtain ⟨st1, h1, -⟩ := full_general b c S it1 dl1 hp hc ok (fun _ => 0) (fun _ => 0) st
  rw [e1, e2] at h1
  obtain ⟨st2, h2, h3⟩ := full_general b c S it2 dl2 hp hc ok dl1.wx dl1.wd st1
  refine ⟨st1, st2, _, _, _, _, h1, h2, ?_⟩
  intro lin hlin rhs0 r dir dir' hz hd' hne hN
  obtain ⟨ans, d2, h4, -, -, h5⟩ := h3 lin hlin rhs0 r dir hz
  rw [hd'] at h4
  obtain ⟨rfl, rfl⟩ := Prod.mk.inj (Option.some.inj h4)
  have hN2 := h5 rfl
  rcases hne with ⟨i, hi1, hi2⟩ | ⟨i, hi1, hi2⟩
  · have a1 := hN.rowx i
    have a2 := hN2.rowx i
    simp only [axpy] at a2
    have : dl1.wx i * dir'.x i = 0 := by linear_combination a2 - a1
    rcases mul_eq_zero.1 this with h | h
    · exact hi1 h
    · exact hi2 h
  · have a1 := hN.rowd i
    have a2 := hN2.rowd i
    simp only [axpy] at a2
    have : dl1.wd i * dir'.d i = 0 := by linear_combination a2 - a1
    rcases mul_eq_zero.1 this with h | h
    · exact hi1 h
    · exact hi2 h

/-- Entries of the direction that belong to absent bounds are not written: they keep whatever the
direction held before. The second-order correction direction is allocated without clearing them. -/
theorem C57_absent_kept (hc : c.Ok b)
    (lin : RVec K (fullN c n mc m) → Option (RVec K (fullN c n mc m)))
    (rhs0 : RVec K (fullN c n mc m)) (r : Resid K n mc m) (dir dir' : It K n mc m)
    (h : fullDirections b c lin rhs0 r dir = some (true, dir')) :
    (∀ i, b.ixl i ≠ 1 → dir'.sxl i = dir.sxl i ∧ dir'.zl i = dir.zl i) ∧
    (∀ i, b.ixu i ≠ 1 → dir'.sxu i = dir.sxu i ∧ dir'.zu i = dir.zu i) ∧
    (∀ i, b.idl i ≠ 1 → dir'.sdl i = dir.sdl i ∧ dir'.vl i = dir.vl i) ∧
    ∀ i, b.idu i ≠ 1 → dir'.sdu i = dir.sdu i ∧ dir'.vu i = dir.vu i := by
  obtain ⟨rhs, hr, -⟩ := fullRhs_spec b c hc r rhs0
  unfold fullDirections at h
  rw [hr] at h
  simp only at h
  rcases hx : lin rhs with _ | x
  · rw [hx] at h; simp at h
  · rw [hx] at h
    simp only [fullUnpack_spec b c hc] at h
    obtain ⟨-, rfl⟩ := Prod.mk.inj (Option.some.inj h)
    refine ⟨?_, ?_, ?_, ?_⟩ <;> intro i hi <;> simp only [readDir, if_neg hi, and_self]

/-- A direction as a right-hand side, in the order of the unknowns. -/
def asResid (d : It K n mc m) : Resid K n mc m where
  rx := d.x
  ryc := d.yc
  ryd := d.yd
  rd := d.d
  rdl := d.vl
  rdu := d.vu
  rxl := d.zl
  rxu := d.zu
  rsvl := d.sdl
  rsvu := d.sdu
  rszl := d.sxl
  rszu := d.sxu

/-- **C57, no spurious equations.** Every direction that satisfies the Newton equations, packed in the
order of the unknowns, solves the assembled system: the system is equivalent to the Newton
equations. In particular a solver that finds solutions whenever there are any finds a Newton
direction whenever there is one. -/
theorem C57_complete (hp : Patterns b) (hc : c.Ok b) (ok : S.Ok n mc m)
    (r : Resid K n mc m) (rhs0 : RVec K (fullN c n mc m)) (d dir : It K n mc m) (hz : OffZero b dir)
    (hN : FullNewton b (S.toMats n mc m) { dl with wx := hx, wd := hd } it r d) :
    ∃ x rhs, fullUnpack b c x dir = some d ∧ fullRhs b c r rhs0 = some rhs ∧
      ∀ k : Fin (fullN c n mc m), ∑ j : Fin (fullN c n mc m),
        entry (fullLists b c S it hx hd dl).flatten k j * x j = rhs k := by
  have eN : fullN c n mc m = n + mc + m + m + c.ndl + c.ndu + c.nxl + c.nxu + c.ndl + c.ndu + c.nxl
    + c.nxu := rfl
  have e2 : st2 n mc m = n + mc + m := rfl
  have e3 : st3 n mc m = n + mc + m + m := rfl
  have e4 : st4 c n mc m = n + mc + m + m + c.ndl + c.ndu + c.nxl + c.nxu := rfl
  have h1 := hc.ndl
  have h2 := hc.ndu
  have h3 := hc.nxl
  have h4 := hc.nxu
  obtain ⟨x, -, px⟩ := fullRhs_spec b c hc (asResid d) rhs0
  obtain ⟨rhs, hr, pr⟩ := fullRhs_spec b c hc r rhs0
  refine ⟨x, rhs, ?_, hr, ?_⟩
  · rw [fullUnpack_spec b c hc]
    congr 1
    have key : ∀ {q : ℕ} (ix : RVec K q) (f : Fin q → ℕ) (v w : RVec K q), IsPattern ix →
        (∀ i, ix i = 1 → at1 x (f i) = v i) → (∀ i, ix i = 0 → v i = w i) →
        (fun i => if ix i = 1 then at1 x (f i) else w i) = v := by
      intro q ix f v w hpat hv hw
      funext i
      rcases hpat i with h0 | h0
      · simp only [h0, zero_ne_one, if_false]; exact (hw i h0).symm
      · simp only [h0, if_true]; exact hv i h0
    unfold readDir
    rw [key b.idl _ d.vl dir.vl hp.idl px.rdl fun i h0 => by rw [(hN.offdl i h0).2, (hz.dl i h0).2],
      key b.idu _ d.vu dir.vu hp.idu px.rdu fun i h0 => by rw [(hN.offdu i h0).2, (hz.du i h0).2],
      key b.ixl _ d.zl dir.zl hp.ixl px.rxl fun i h0 => by rw [(hN.offxl i h0).2, (hz.xl i h0).2],
      key b.ixu _ d.zu dir.zu hp.ixu px.rxu fun i h0 => by rw [(hN.offxu i h0).2, (hz.xu i h0).2],
      key b.idl _ d.sdl dir.sdl hp.idl px.rsvl fun i h0 => by rw [(hN.offdl i h0).1, (hz.dl i h0).1],
      key b.idu _ d.sdu dir.sdu hp.idu px.rsvu fun i h0 => by rw [(hN.offdu i h0).1, (hz.du i h0).1],
      key b.ixl _ d.sxl dir.sxl hp.ixl px.rszl fun i h0 => by rw [(hN.offxl i h0).1, (hz.xl i h0).1],
      key b.ixu _ d.sxu dir.sxu hp.ixu px.rszu fun i h0 => by rw [(hN.offxu i h0).1, (hz.xu i h0).1],
      show (fun i : Fin n => at1 x i) = d.x from funext px.rx,
      show (fun i : Fin mc => at1 x (n + i)) = d.yc from funext px.ryc,
      show (fun i : Fin m => at1 x (n + mc + i)) = d.yd from funext px.ryd,
      show (fun i : Fin m => at1 x (st2 n mc m + i)) = d.d from funext px.rd]
  · intro k
    rw [sum_rows _ _ (fullLists_cols b c S it hx hd dl hc ok), ← at1_fin rhs k]
    have hk := k.2
    generalize (k : ℕ) = k at hk ⊢
    have px1 : ∀ i : Fin n, at1 x i = d.x i := px.rx
    have px2 : ∀ i : Fin mc, at1 x (n + i) = d.yc i := px.ryc
    have px3 : ∀ i : Fin m, at1 x (n + mc + i) = d.yd i := px.ryd
    have px4 : ∀ i : Fin m, at1 x (st2 n mc m + i) = d.d i := px.rd
    have px5 : ∀ i, b.idl i = 1 → at1 x (st3 n mc m + rank b.idl i) = d.vl i := px.rdl
    have px6 : ∀ i, b.idu i = 1 → at1 x (st3 n mc m + c.ndl + rank b.idu i) = d.vu i := px.rdu
    have px7 : ∀ i, b.ixl i = 1 → at1 x (st3 n mc m + c.ndl + c.ndu + rank b.ixl i) = d.zl i := px.rxl
    have px8 : ∀ i, b.ixu i = 1 →
      at1 x (st3 n mc m + c.ndl + c.ndu + c.nxl + rank b.ixu i) = d.zu i := px.rxu
    have px9 : ∀ i, b.idl i = 1 → at1 x (st4 c n mc m + rank b.idl i) = d.sdl i := px.rsvl
    have px10 : ∀ i, b.idu i = 1 → at1 x (st4 c n mc m + c.ndl + rank b.idu i) = d.sdu i := px.rsvu
    have px11 : ∀ i, b.ixl i = 1 →
      at1 x (st4 c n mc m + c.ndl + c.ndu + rank b.ixl i) = d.sxl i := px.rszl
    have px12 : ∀ i, b.ixu i = 1 →
      at1 x (st4 c n mc m + c.ndl + c.ndu + c.nxl + rank b.ixu i) = d.sxu i := px.rszu
    by_cases k1 : k < n
    · have e : k = ((⟨k, k1⟩ : Fin n) : ℕ) := rfl
      generalize (⟨k, k1⟩ : Fin n) = i at e
      subst e
      rw [row_x b c S it hx hd dl hc ok _ i, pr.rx i, ← hN.rowx i]
      simp only [px1, px2, px3, SpMats.toMats, dense]
      rcases hp.ixl i with a1 | a1 <;> rcases hp.ixu i with a2 | a2 <;>
        simp only [a1, a2, if_true, zero_ne_one, if_false]
      · rw [(hN.offxl i a1).2, (hN.offxu i a2).2]
      · rw [(hN.offxl i a1).2, px8 i a2]
      · rw [(hN.offxu i a2).2, px7 i a1]
      · rw [px7 i a1, px8 i a2]
    by_cases k2 : k < n + mc
    · obtain ⟨i, rfl⟩ : ∃ i : Fin mc, k = n + i := ⟨⟨k - n, by omega⟩, by simp; omega⟩
      rw [row_yc b c S it hx hd dl hc ok _ i, pr.ryc i, ← hN.yc i]
      simp only [px1, px2, SpMats.toMats, dense]
    by_cases k3 : k < n + mc + m
    · obtain ⟨i, rfl⟩ : ∃ i : Fin m, k = n + mc + i := ⟨⟨k - (n + mc), by omega⟩, by simp; omega⟩
      rw [row_yd b c S it hx hd dl hc ok _ i, pr.ryd i, ← hN.yd i]
      simp only [px1, px3, px4, SpMats.toMats, dense]
    by_cases k4 : k < n + mc + m + m
    · obtain ⟨i, rfl⟩ : ∃ i : Fin m, k = st2 n mc m + i :=
        ⟨⟨k - (n + mc + m), by omega⟩, by simp; omega⟩
      rw [row_d b c S it hx hd dl hc ok _ i, pr.rd i, ← hN.rowd i]
      simp only [px3, px4]
      rcases hp.idl i with a1 | a1 <;> rcases hp.idu i with a2 | a2 <;>
        simp only [a1, a2, if_true, zero_ne_one, if_false]
      · rw [(hN.offdl i a1).2, (hN.offdu i a2).2]
      · rw [(hN.offdl i a1).2, px6 i a2]
      · rw [(hN.offdu i a2).2, px5 i a1]
      · rw [px5 i a1, px6 i a2]
    by_cases k5 : k < st3 n mc m + c.ndl
    · obtain ⟨i, ha, hi⟩ := exists_rank b.idl (k := k - st3 n mc m) (by omega)
      obtain rfl : k = st3 n mc m + rank b.idl i := by omega
      rw [row_dl b c S it hx hd dl hc ok _ i ha, pr.rdl i ha, ← hN.sdl i ha, px9 i ha, px4]
    by_cases k6 : k < st3 n mc m + c.ndl + c.ndu
    · obtain ⟨i, ha, hi⟩ := exists_rank b.idu (k := k - (st3 n mc m + c.ndl)) (by omega)
      obtain rfl : k = st3 n mc m + c.ndl + rank b.idu i := by omega
      rw [row_du b c S it hx hd dl hc ok _ i ha, pr.rdu i ha, ← hN.sdu i ha, px10 i ha, px4]
    by_cases k7 : k < st3 n mc m + c.ndl + c.ndu + c.nxl
    · obtain ⟨i, ha, hi⟩ := exists_rank b.ixl (k := k - (st3 n mc m + c.ndl + c.ndu)) (by omega)
      obtain rfl : k = st3 n mc m + c.ndl + c.ndu + rank b.ixl i := by omega
      rw [row_xl b c S it hx hd dl hc ok _ i ha, pr.rxl i ha, ← hN.sxl i ha, px11 i ha, px1]
    by_cases k8 : k < st3 n mc m + c.ndl + c.ndu + c.nxl + c.nxu
    · obtain ⟨i, ha, hi⟩ := exists_rank b.ixu (k := k - (st3 n mc m + c.ndl + c.ndu + c.nxl))
        (by omega)
      obtain rfl : k = st3 n mc m + c.ndl + c.ndu + c.nxl + rank b.ixu i := by omega
      rw [row_xu b c S it hx hd dl hc ok _ i ha, pr.rxu i ha, ← hN.sxu i ha, px12 i ha, px1]
    by_cases k9 : k < st4 c n mc m + c.ndl
    · obtain ⟨i, ha, hi⟩ := exists_rank b.idl (k := k - st4 c n mc m) (by omega)
      obtain rfl : k = st4 c n mc m + rank b.idl i := by omega
      rw [row_sdl b c S it hx hd dl hc ok _ i ha, pr.rsvl i ha, ← hN.vl i ha, px9 i ha, px5 i ha]
      ring
    by_cases k10 : k < st4 c n mc m + c.ndl + c.ndu
    · obtain ⟨i, ha, hi⟩ := exists_rank b.idu (k := k - (st4 c n mc m + c.ndl)) (by omega)
      obtain rfl : k = st4 c n mc m + c.ndl + rank b.idu i := by omega
      rw [row_sdu b c S it hx hd dl hc ok _ i ha, pr.rsvu i ha, ← hN.vu i ha, px10 i ha, px6 i ha]
      ring
    by_cases k11 : k < st4 c n mc m + c.ndl + c.ndu + c.nxl
    · obtain ⟨i, ha, hi⟩ := exists_rank b.ixl (k := k - (st4 c n mc m + c.ndl + c.ndu)) (by omega)
      obtain rfl : k = st4 c n mc m + c.ndl + c.ndu + rank b.ixl i := by omega
      rw [row_sxl b c S it hx hd dl hc ok _ i ha, pr.rszl i ha, ← hN.zl i ha, px11 i ha, px7 i ha]
      ring
    · obtain ⟨i, ha, hi⟩ := exists_rank b.ixu (k := k - (st4 c n mc m + c.ndl + c.ndu + c.nxl))
        (by omega)
      obtain rfl : k = st4 c n mc m + c.ndl + c.ndu + c.nxl + rank b.ixu i := by omega
      rw [row_sxu b c S it hx hd dl hc ok _ i ha, pr.rszu i ha, ← hN.zu i ha, px12 i ha, px8 i ha]
      ring

/-! ## Concrete cases -/

/-- The counters of the instance of `Verif/Kkt/Props.lean`: a lower bound on the variable and one on
the inequality. -/
def exBc : BCounts := ⟨1, 0, 1, 0⟩

theorem exBc_ok : exBc.Ok exB := by
  constructor <;> decide +kernel

/-- The packed right-hand side of the instance. -/
def exRhs : Fin 8 → ℚ := ![1, 3, 4, 2, 6, 5, 8, 7]

/-- A solver that answers the right-hand side of the instance with `s` and gives up otherwise. -/
def exLinFull (s : Fin 8 → ℚ) : RVec ℚ (fullN exBc 1 1 1) → Option (RVec ℚ (fullN exBc 1 1 1)) :=
  fun rhs => if ∀ k : Fin 8, (show Fin 8 → ℚ from rhs) k = exRhs k then some s else none

/-- The solution `x, yc, yd, d, vl, zl, sdl, sxl` with `delta = 1`, from `Hx_ = Hd_ = 0`. -/
def exSol1 : Fin 8 → ℚ :=
  let x := 15 / 7
  let d := 5 / 7
  ![x, x - 3, x - d - 4, d, 2 - d, 2 - x, d + 6, x + 5]

/-- The solution of the second call, with `Hx_ = Hd_ = 2`. -/
def exSol2 : Fin 8 → ℚ :=
  let x := 40 / 23
  let d := 10 / 23
  ![x, x - 3, x - d - 4, d, 2 - d, 2 - x, d + 6, x + 5]

/-- A direction object after `selectPattern`. -/
def exDir : It ℚ 1 1 1 :=
  ⟨fun _ => 9, fun _ => 9, fun _ => 9, fun _ => 0, fun _ => 9, fun _ => 0, fun _ => 9, fun _ => 9,
    fun _ => 9, fun _ => 0, fun _ => 9, fun _ => 0⟩

theorem exDir_off : OffZero exB exDir := by
  constructor <;> decide +kernel

/-- Solving for one right-hand side. -/
theorem exLinFull_solves (es : List (Ent ℚ)) (s : Fin 8 → ℚ)
    (h : ∀ r : Fin 8, ∑ c : Fin 8, entry es r c * s c = exRhs r) :
    NsSolves (fullN exBc 1 1 1) es (exLinFull s) := by
  intro rhs x hx r
  simp only [exLinFull] at hx
  split at hx
  · rename_i hr
    rw [show rhs r = exRhs r from hr r]
    obtain rfl := Option.some.inj hx
    exact h r
  · simp at hx

/-- C57 applies: the solver answers and the direction found satisfies the Newton equations. -/
example : ∃ st' dir', buildFull exB exBc exSp exIt (fun _ => 0) (fun _ => 0) exDl
      (fun _ => ⟨9, 9, 9⟩) = some (st', exDl.wx, exDl.wd) ∧
    fullDirections exB exBc (exLinFull exSol1) (fun _ => 7) exR exDir = some (true, dir') ∧
    FullNewton exB (exSp.toMats 1 1 1) exDl exIt exR dir' ∧ dir'.x 0 = 15 / 7 := by
  obtain ⟨st', a, h⟩ := C57_newton_partial exB exBc exSp exIt exDl exB_patterns exBc_ok exSp_ok
    (fun _ => ⟨9, 9, 9⟩)
  obtain ⟨st'', a', e⟩ := buildFull_eq exB exBc exSp exIt exDl exB_patterns exBc_ok (fun _ => 0)
    (fun _ => 0) (fun _ => ⟨9, 9, 9⟩)
  obtain rfl : st' = st'' := by
    rw [a] at a'; exact (Prod.mk.inj (Option.some.inj a')).1
  obtain ⟨ans, dir', h1, -, -, h4⟩ := h (exLinFull exSol1)
    (by rw [e]; exact exLinFull_solves _ _ (by decide +kernel)) (fun _ => 7) exR exDir exDir_off
  have hd : (fullDirections exB exBc (exLinFull exSol1) (fun _ => 7) exR exDir).map
      (fun p => (p.1, p.2.x 0)) = some (true, 15 / 7) := by decide +kernel
  rw [h1] at hd
  obtain ⟨rfl, h5⟩ := Prod.mk.inj (Option.some.inj hd)
  exact ⟨st', dir', a, h1, h4 rfl, h5⟩

/-- The refutation applies: after one assembly with `delta = 1`, the second assembly with the same
perturbations gives a direction that is not the Newton direction. -/
example : ∃ st1 st2 hx1 hd1 hx2 hd2 dir',
    buildFull exB exBc exSp exIt (fun _ => 0) (fun _ => 0) exDl (fun _ => ⟨9, 9, 9⟩)
      = some (st1, hx1, hd1) ∧
    buildFull exB exBc exSp exIt hx1 hd1 exDl st1 = some (st2, hx2, hd2) ∧
    NsSolves (fullN exBc 1 1 1) (toList st2 (fullNnz exBc exSp 1 1 1)) (exLinFull exSol2) ∧
    fullDirections exB exBc (exLinFull exSol2) (fun _ => 7) exR exDir = some (true, dir') ∧
    ¬ FullNewton exB (exSp.toMats 1 1 1) exDl exIt exR dir' := by
  obtain ⟨st1, st2, hx1, hd1, hx2, hd2, a1, a2, h⟩ := C57_later_calls_false exB exBc exSp
    exB_patterns exBc_ok exSp_ok exDl exDl exIt exIt (fun _ => ⟨9, 9, 9⟩)
  obtain ⟨t1, c1, -⟩ := buildFull_eq exB exBc exSp exIt exDl exB_patterns exBc_ok (fun _ => 0)
    (fun _ => 0) (fun _ => ⟨9, 9, 9⟩)
  rw [a1] at c1
  obtain ⟨rfl, hh⟩ := Prod.mk.inj (Option.some.inj c1)
  obtain ⟨rfl, rfl⟩ := Prod.mk.inj hh
  obtain ⟨t2, c2, e⟩ := buildFull_eq exB exBc exSp exIt exDl exB_patterns exBc_ok
    (axpy (fun _ => 0) 1 exDl.wx) (axpy (fun _ => 0) 1 exDl.wd) st1
  rw [a2] at c2
  obtain ⟨rfl, -⟩ := Prod.mk.inj (Option.some.inj c2)
  have hs : NsSolves (fullN exBc 1 1 1) (toList st2 (fullNnz exBc exSp 1 1 1))
      (exLinFull exSol2) := by
    rw [e]; exact exLinFull_solves _ _ (by decide +kernel)
  have hd : (fullDirections exB exBc (exLinFull exSol2) (fun _ => 7) exR exDir).map
      (fun p => (p.1, p.2.x 0)) = some (true, 40 / 23) := by decide +kernel
  obtain ⟨⟨a', d'⟩, hd1, hd2⟩ := Option.map_eq_some_iff.1 hd
  obtain ⟨rfl, hd2⟩ := Prod.mk.inj hd2
  simp only at hd2
  have hd3 : d'.x 0 ≠ 0 := by rw [hd2]; norm_num
  exact ⟨st1, st2, _, _, _, _, d', a1, a2, hs, hd1,
    h _ hs _ _ _ _ exDir_off hd1 (Or.inl ⟨0, by decide +kernel, hd3⟩)⟩

end Hiop.Sparse
