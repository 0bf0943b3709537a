import Verif.KktFile.Model
import Mathlib.Tactic.Linarith
import Mathlib.Tactic.NormNum
import Mathlib.Tactic.FieldSimp
import Mathlib.Tactic.Positivity

/-!
# C92: a saved linear system can be read back

The specification is the description of the format in `src/LinAlg/csr_iajaaa.md` and the reader
`src/LinAlg/load_kkt_mat.m`.
-/

namespace Hiop.KktFile

/-! ## Specification -/

/-- A system read from a file. -/
structure Saved where
  m : ℕ
  nx : ℕ
  meq : ℕ
  mineq : ℕ
  nnz : ℕ
  rowp : List ℕ
  cols : List ℕ
  vals : List ℝ
  /-- right-hand sides and solutions, in turn -/
  vecs : List (List ℝ)

/-- The numbers of the file are those of the system, in the order of `csr_iajaaa.md`. -/
structure Parses (f : List ℝ) (S : Saved) : Prop where
  eq : f = [(S.m : ℝ), S.nx, S.meq, S.mineq, S.nnz] ++ S.rowp.map (fun n : ℕ => (n : ℝ))
    ++ S.cols.map (fun n : ℕ => (n : ℝ)) ++ S.vals ++ S.vecs.flatten
  rowp : S.rowp.length = S.m + 1
  cols : S.cols.length = S.nnz
  vals : S.vals.length = S.nnz
  vecs : ∀ v ∈ S.vecs, v.length = S.m

/-- The entry in row `i` and column `j` (from 0): the values with that column among those from the
offset of row `i` to the offset of the next row (from 1). -/
noncomputable def Saved.entry (S : Saved) (i j : ℕ) : ℝ :=
  (((((S.cols.zip S.vals).drop (S.rowp.getD i 0 - 1)).take
    (S.rowp.getD (i + 1) 0 - S.rowp.getD i 0)).filter (fun p => decide (p.1 = j + 1))).map
      Prod.snd).sum

/-- The column indexes (from 1) stored for row `i` (from 0). -/
def Saved.row (S : Saved) (i : ℕ) : List ℕ :=
  (S.cols.drop (S.rowp.getD i 0 - 1)).take (S.rowp.getD (i + 1) 0 - S.rowp.getD i 0)

/-- The symmetric matrix whose upper triangle was saved. -/
noncomputable def Saved.sym (S : Saved) (i j : ℕ) : ℝ :=
  if i ≤ j then S.entry i j else S.entry j i

/-- Two numbers agree to half a unit of the twentieth decimal. -/
def Close (a b : ℝ) : Prop := |a - b| ≤ 1 / (2 * 10 ^ 20)

/-! ## Numbers -/

theorem fmt_close (v : ℝ) : Close (fmt v) v := by
  have h := abs_sub_round (v * 10 ^ 20)
  have e : fmt v - v = -((v * 10 ^ 20 - (round (v * 10 ^ 20) : ℤ)) / 10 ^ 20) := by
    unfold fmt; field_simp; ring
  unfold Close
  rw [e, abs_neg, abs_div, abs_of_pos (by positivity : (0:ℝ) < 10 ^ 20), div_le_div_iff₀ (by positivity) (by positivity)]
  generalize |v * 10 ^ 20 - (round (v * 10 ^ 20) : ℤ)| = t at h
  linarith

/-! ## Loops -/

theorem foldl_count {α : Type} (l : List α) (n : ℕ) : l.foldl (fun n _ => n + 1) n = n + l.length := by
  induction l generalizing n with
  | nil => rfl
  | cons a l ih => simp [List.foldl_cons, ih]; omega

/-- Number of entries in the first `i` rows. -/
noncomputable def before (m : ℕ) (M : ℕ → ℝ) (i : ℕ) : ℕ :=
  ((List.range i).flatMap (rowCols m M)).length

theorem before_succ (m : ℕ) (M : ℕ → ℝ) (i : ℕ) :
    before m M (i + 1) = before m M i + (rowCols m M i).length := by
  simp [before, List.range_succ]

theorem countNnz_eq (m : ℕ) (M : ℕ → ℝ) : countNnz m M = before m M m := by
  have : ∀ k, (List.range k).foldl (fun n i => (rowCols m M i).foldl (fun n _ => n + 1) n) 0
      = before m M k := by
    intro k
    induction k with
    | zero => simp [before]
    | succ k ih => rw [List.range_succ, List.foldl_append, ih, before_succ]; simp
  exact this m

theorem offsets_eq (m : ℕ) (M : ℕ → ℝ) :
    (offsets m M).2 = (List.range (m + 1)).map (fun i => before m M i + 1) := by
  have : ∀ k, (List.range k).foldl
    (fun s i =>
      let o := (rowCols m M i).foldl (fun n _ => n + 1) s.1
      (o, s.2 ++ [o])) ((1, [1]) : ℕ × List ℕ)
      = (before m M k + 1, (List.range (k + 1)).map (fun i => before m M i + 1)) := by
    intro k
    induction k with
    | zero => simp [before]
    | succ k ih =>
      rw [List.range_succ, List.foldl_append, ih]
      simp only [List.foldl_cons, List.foldl_nil, foldl_count]
      have e : before m M k + 1 + (rowCols m M k).length = before m M (k + 1) + 1 := by
        rw [before_succ]; omega
      rw [e, List.range_succ (n := k + 1), List.map_append]
      rfl
  rw [offsets, this m]

theorem flatMap_block {α : Type} (g : ℕ → List α) (m i : ℕ) (h : i < m) :
    (((List.range m).flatMap g).drop ((List.range i).flatMap g).length).take (g i).length = g i := by
  obtain ⟨k, rfl⟩ : ∃ k, m = i + (k + 1) := ⟨m - i - 1, by omega⟩
  rw [List.range_add, List.flatMap_append, List.drop_left, List.range_succ_eq_map]
  simp

theorem pick (l : List ℕ) (hl : l.Nodup) (g : ℕ → ℝ) (j : ℕ) :
    (((l.map fun a => (a + 1, g a)).filter (fun p => decide (p.1 = j + 1))).map Prod.snd).sum
      = if j ∈ l then g j else 0 := by
  induction l with
  | nil => simp
  | cons a l ih =>
    have ih := ih hl.of_cons
    have ha := (List.nodup_cons.mp hl).1
    by_cases h : a = j
    · subst h
      simp only [ha, if_false] at ih
      simp [ih]
    · have h' : ¬ j = a := fun e => h e.symm
      simp [h, h', ih]

/-! ## The matrix -/

/-- What `writeMatToFile` and the vectors after it amount to. -/
noncomputable def savedOf (d : Dims) (M : ℕ → ℝ) (vs : List (List ℝ)) : Saved :=
  ⟨d.m, d.nx, d.meq, d.mineq, countNnz d.m M, (offsets d.m M).2, colIdx d.m M, entries d.m M, vs⟩

theorem length_cols (m : ℕ) (M : ℕ → ℝ) : (colIdx m M).length = countNnz m M := by
  rw [countNnz_eq]; simp [colIdx, before, List.length_flatMap]

theorem length_entries (m : ℕ) (M : ℕ → ℝ) : (entries m M).length = countNnz m M := by
  rw [countNnz_eq]; simp [entries, before, List.length_flatMap]

theorem parses_savedOf (d : Dims) (M : ℕ → ℝ) (vs : List (List ℝ)) (hv : ∀ v ∈ vs, v.length = d.m) :
    Parses (matFile d M ++ vs.flatten) (savedOf d M vs) :=
  ⟨by simp [matFile, savedOf, nums], by simp [savedOf, offsets_eq], length_cols _ _,
    length_entries _ _, hv⟩

theorem zip_eq (m : ℕ) (M : ℕ → ℝ) : (colIdx m M).zip (entries m M)
    = (List.range m).flatMap fun i => (rowCols m M i).map fun j => (j + 1, fmt (M (i * m + j))) := by
  have h1 : colIdx m M = ((List.range m).flatMap fun i =>
      (rowCols m M i).map fun j => (j + 1, fmt (M (i * m + j)))).map Prod.fst := by
    simp [colIdx, List.map_flatMap, Function.comp_def]
  have h2 : entries m M = ((List.range m).flatMap fun i =>
      (rowCols m M i).map fun j => (j + 1, fmt (M (i * m + j)))).map Prod.snd := by
    simp [entries, List.map_flatMap, Function.comp_def]
  rw [h1, h2, List.zip_map']; simp

theorem mem_rowCols (m : ℕ) (M : ℕ → ℝ) (i j : ℕ) :
    j ∈ rowCols m M i ↔ i ≤ j ∧ j < m ∧ zeroTol < |M (i * m + j)| := by
  simp only [rowCols, List.mem_filter, List.mem_range'_1, decide_eq_true_eq]
  constructor
  · rintro ⟨⟨a, b⟩, c⟩; exact ⟨a, by omega, c⟩
  · rintro ⟨a, b, c⟩; exact ⟨⟨a, by omega⟩, c⟩

theorem nodup_rowCols (m : ℕ) (M : ℕ → ℝ) (i : ℕ) : (rowCols m M i).Nodup :=
  List.Nodup.filter _ List.nodup_range'

theorem rowp_savedOf (d : Dims) (M : ℕ → ℝ) (vs : List (List ℝ)) (i : ℕ) (hi : i ≤ d.m) :
    (savedOf d M vs).rowp.getD i 0 = before d.m M i + 1 := by
  show (offsets d.m M).2.getD i 0 = _
  rw [offsets_eq, List.getD_eq_getElem?_getD, List.getElem?_eq_getElem (by simp; omega)]; simp

theorem row_savedOf (d : Dims) (M : ℕ → ℝ) (vs : List (List ℝ)) (i : ℕ) (hi : i < d.m) :
    (savedOf d M vs).row i = (rowCols d.m M i).map fun j => j + 1 := by
  have e3 := flatMap_block (fun i => (rowCols d.m M i).map fun j => j + 1) d.m i hi
  have e4 : ((List.range i).flatMap fun i => (rowCols d.m M i).map fun j => j + 1).length
      = before d.m M i := by
    simp [before, List.length_flatMap]
  rw [e4, List.length_map] at e3
  unfold Saved.row
  rw [rowp_savedOf d M vs i hi.le, rowp_savedOf d M vs (i + 1) hi, before_succ]
  have e5 : before d.m M i + (rowCols d.m M i).length + 1 - (before d.m M i + 1)
      = (rowCols d.m M i).length := by omega
  rw [e5, Nat.add_sub_cancel]
  exact e3

open Classical in
theorem entry_savedOf (d : Dims) (M : ℕ → ℝ) (vs : List (List ℝ)) (i j : ℕ) (hi : i < d.m) :
    (savedOf d M vs).entry i j =
      if i ≤ j ∧ j < d.m ∧ zeroTol < |M (i * d.m + j)| then fmt (M (i * d.m + j)) else 0 := by
  have e1 : (offsets d.m M).2.getD i 0 = before d.m M i + 1 := by
    rw [offsets_eq, List.getD_eq_getElem?_getD, List.getElem?_eq_getElem (by simp; omega)]; simp
  have e2 : (offsets d.m M).2.getD (i + 1) 0 = before d.m M (i + 1) + 1 := by
    rw [offsets_eq, List.getD_eq_getElem?_getD, List.getElem?_eq_getElem (by simp; omega)]; simp
  have e3 := flatMap_block (fun i => (rowCols d.m M i).map fun j => (j + 1, fmt (M (i * d.m + j))))
    d.m i hi
  have e4 : ((List.range i).flatMap fun i => (rowCols d.m M i).map
      fun j => (j + 1, fmt (M (i * d.m + j)))).length = before d.m M i := by
    simp [before, List.length_flatMap]
  rw [e4, List.length_map] at e3
  unfold Saved.entry
  simp only [savedOf]
  rw [e1, e2, before_succ, zip_eq]
  have e5 : before d.m M i + (rowCols d.m M i).length + 1 - (before d.m M i + 1)
      = (rowCols d.m M i).length := by omega
  rw [e5, Nat.add_sub_cancel, e3, pick _ (nodup_rowCols _ _ _) (fun j => fmt (M (i * d.m + j)))]
  simp only [mem_rowCols]

/-! ## Calls -/

/-- The vectors of the solves, rounded. -/
noncomputable def vecsOf : List Op → List (List ℝ)
  | [] => []
  | .update _ :: os => vecsOf os
  | .solve r x :: os => r.map fmt :: x.map fmt :: vecsOf os

/-- Vectors of the solves have the size of the system. -/
def Sized (d : Dims) (os : List Op) : Prop :=
  ∀ r x, Op.solve r x ∈ os → r.length = d.m ∧ x.length = d.m

/-- Number of matrices. -/
def updates : List Op → ℕ
  | [] => 0
  | .update _ :: os => updates os + 1
  | .solve _ _ :: os => updates os

theorem run_append (a h : Bool) (d : Dims) (s : State) (o1 o2 : List Op) :
    run a h d s (o1 ++ o2) = (run a h d s o1).bind fun s => run a h d s o2 := by
  induction o1 generalizing s with
  | nil => rfl
  | cons o os ih =>
    simp only [List.cons_append, run]
    cases step a h d s o with
    | none => rfl
    | some s' => simpa using ih s'

/-- The counter is the number of the last matrix, which the writer knows. -/
def Inv (d : Dims) (s : State) : Prop :=
  -1 ≤ s.counter ∧ (0 ≤ s.counter → s.last = s.counter ∧ s.wm = d.m)

theorem step_solve (a : Bool) (d : Dims) (s : State) (hs : Inv d s) (h0 : 0 ≤ s.counter)
    (r x : List ℝ) (hr : r.length = d.m) (hx : x.length = d.m) :
    step a true d s (.solve r x) = some ⟨s.counter, s.wm, s.last, Function.update s.fs s.counter
      (some ((s.fs s.counter).getD [] ++ (r.map fmt ++ x.map fmt)))⟩ := by
  obtain ⟨h1, h2⟩ := hs.2 h0
  have hr' : r.take d.m = r := List.take_of_length_le hr.le
  have hx' : x.take d.m = x := List.take_of_length_le hx.le
  simp [step, h0, writeVec, h1, h2, hr, hx, hr', hx']

theorem step_ok (a : Bool) (d : Dims) (s : State) (hs : Inv d s) (o : Op) (ho : Sized d [o]) :
    ∃ s', step a true d s o = some s' ∧ Inv d s' ∧ s'.counter = s.counter + updates [o] ∧
      ∀ k, k < s.counter → s'.fs k = s.fs k := by
  cases o with
  | update M =>
    refine ⟨_, rfl, ?_, ?_, ?_⟩
    · exact ⟨by show -1 ≤ s.counter + 1; have := hs.1; omega, fun _ => ⟨rfl, rfl⟩⟩
    · simp [writeMat, updates]
    · intro k hk
      simp only [if_true, writeMat]
      rw [Function.update_of_ne (by omega)]
  | solve r x =>
    obtain ⟨hr, hx⟩ := ho r x (by simp)
    by_cases h0 : 0 ≤ s.counter
    · refine ⟨_, step_solve a d s hs h0 r x hr hx, hs, by simp [updates], ?_⟩
      intro k hk
      exact Function.update_of_ne (ne_of_lt hk) _ _
    · exact ⟨s, by simp [step, h0], hs, by simp [updates], fun _ _ => rfl⟩

theorem updates_cons (o : Op) (os : List Op) : updates (o :: os) = updates [o] + updates os := by
  cases o <;> simp only [updates] <;> omega

theorem run_ok (a : Bool) (d : Dims) (os : List Op) : ∀ (s : State), Inv d s → Sized d os →
    ∃ s', run a true d s os = some s' ∧ Inv d s' ∧ s'.counter = s.counter + updates os ∧
      ∀ k, k < s.counter → s'.fs k = s.fs k := by
  induction os with
  | nil => intro s hs _; exact ⟨s, rfl, hs, by simp [updates], fun _ _ => rfl⟩
  | cons o os ih =>
    intro s hs ho
    obtain ⟨s1, e1, i1, c1, f1⟩ := step_ok a d s hs o (fun r x h => ho r x (by simp at h; simp [h]))
    obtain ⟨s2, e2, i2, c2, f2⟩ := ih s1 i1 (fun r x h => ho r x (List.mem_cons_of_mem _ h))
    refine ⟨s2, by simp [run, e1, e2], i2, ?_, ?_⟩
    · have := updates_cons o os; rw [c2, c1]; omega
    · intro k hk; rw [f2 k (by omega), f1 k hk]

/-- Only solves. -/
def Solves (os : List Op) : Prop := updates os = 0

theorem run_solves (a : Bool) (d : Dims) (os : List Op) : ∀ (s : State) (f : List ℝ), Inv d s →
    0 ≤ s.counter → s.fs s.counter = some f → Sized d os → Solves os →
    ∃ s', run a true d s os = some s' ∧ Inv d s' ∧ s'.counter = s.counter ∧
      s'.fs s.counter = some (f ++ (vecsOf os).flatten) := by
  induction os with
  | nil => intro s f hs _ hf _ _; exact ⟨s, rfl, hs, rfl, by simpa [vecsOf] using hf⟩
  | cons o os ih =>
    intro s f hs h0 hf ho hu
    cases o with
    | update M => simp [Solves, updates] at hu
    | solve r x =>
      obtain ⟨hr, hx⟩ := ho r x (by simp)
      have e := step_solve a d s hs h0 r x hr hx
      obtain ⟨s2, e2, i2, c2, f2⟩ := ih ⟨s.counter, s.wm, s.last, Function.update s.fs s.counter
          (some ((s.fs s.counter).getD [] ++ (r.map fmt ++ x.map fmt)))⟩
        (f ++ (r.map fmt ++ x.map fmt)) hs h0 (by simp [hf])
        (fun r x h => ho r x (List.mem_cons_of_mem _ h)) hu
      exact ⟨s2, by simp [run, e, e2], i2, c2, by simpa [vecsOf] using f2⟩

theorem vecsOf_length (d : Dims) (os : List Op) (ho : Sized d os) :
    ∀ v ∈ vecsOf os, v.length = d.m := by
  induction os with
  | nil => simp [vecsOf]
  | cons o os ih =>
    have ih := ih (fun r x h => ho r x (List.mem_cons_of_mem _ h))
    cases o with
    | update M => exact ih
    | solve r x =>
      obtain ⟨hr, hx⟩ := ho r x (by simp)
      intro v hv
      simp only [vecsOf, List.mem_cons] at hv
      rcases hv with rfl | rfl | hv
      · simpa using hr
      · simpa using hx
      · exact ih v hv

/-! ## C92 -/

/-- The right-hand sides and solutions handed to and returned by the solves, in turn. -/
def given : List Op → List (List ℝ)
  | [] => []
  | .update _ :: os => given os
  | .solve r x :: os => r :: x :: given os

theorem vecsOf_close (os : List Op) : List.Forall₂ (List.Forall₂ Close) (vecsOf os) (given os) := by
  have h : ∀ v : List ℝ, List.Forall₂ Close (v.map fmt) v := by
    intro v
    induction v with
    | nil => exact .nil
    | cons a v ih => exact .cons (fmt_close a) ih
  induction os with
  | nil => exact .nil
  | cons o os ih =>
    cases o with
    | update M => exact ih
    | solve r x => exact .cons (h r) (.cons (h x) ih)

/-- **C92, partial.** With `write_kkt = yes`, for the dense and the mixed dense-sparse systems and every
sequence of matrices and solves, in a directory with any files, with or without assertions: nothing
aborts, and the file with the number `k` holds the `k`-th matrix (from 0), its sizes, and the
right-hand side and solution of each solve made with it, in order: a reader of the format gets a
system that lists in each row, once, the columns of the upper triangle with entries above `10^-25`, and
whose upper triangle and vectors agree with these to half a unit of the twentieth decimal.
Missing: relative precision, see `C92_nonzero_refuted`; the systems of sparse problems. -/
theorem C92_file_partial (asserts : Bool) (d : Dims) (fs : ℤ → Option (List ℝ))
    (pre : List Op) (M : ℕ → ℝ) (os post : List Op) (hos : Solves os)
    (hpost : post = [] ∨ ∃ M' p, post = Op.update M' :: p)
    (hsz : Sized d (pre ++ Op.update M :: (os ++ post))) :
    ∃ s f S, run asserts true d (fresh fs) (pre ++ Op.update M :: (os ++ post)) = some s ∧
      s.fs (updates pre) = some f ∧ Parses f S ∧
      S.m = d.m ∧ S.nx = d.nx ∧ S.meq = d.meq ∧ S.mineq = d.mineq ∧
      S.rowp.getD 0 0 = 1 ∧ S.rowp.getD d.m 0 = S.nnz + 1 ∧
      (∀ i, i < d.m → (S.row i).Nodup ∧
        ∀ c, c ∈ S.row i ↔ ∃ j, c = j + 1 ∧ i ≤ j ∧ j < d.m ∧ 1 / 10 ^ 25 < |M (i * d.m + j)|) ∧
      (∀ i j, i ≤ j → j < d.m → Close (S.entry i j) (M (i * d.m + j))) ∧
      (∀ i j, i < d.m → j < i → S.entry i j = 0) ∧
      List.Forall₂ (List.Forall₂ Close) S.vecs (given os) := by
  have z1 : Sized d pre := fun r x h => hsz r x (by simp [h])
  have z2 : Sized d os := fun r x h => hsz r x (by simp [h])
  have z3 : Sized d post := fun r x h => hsz r x (by simp [h])
  obtain ⟨s1, e1, i1, c1, -⟩ := run_ok asserts d pre (fresh fs) ⟨by simp [fresh], by simp [fresh]⟩ z1
  have c1' : s1.counter + 1 = updates pre := by rw [c1]; simp [fresh]
  set s2 : State := writeMat d M { s1 with counter := s1.counter + 1 } with hs2
  have c2 : s2.counter = updates pre := by rw [← c1', hs2]; rfl
  have i2 : Inv d s2 := by
    refine ⟨by rw [c2]; omega, fun _ => ⟨rfl, rfl⟩⟩
  have f2 : s2.fs s2.counter = some (matFile d M) := by simp [hs2, writeMat]
  obtain ⟨s3, e3, i3, c3, f3⟩ := run_solves asserts d os s2 _ i2 (by rw [c2]; omega) f2 z2 hos
  have last : ∃ s4, run asserts true d s3 post = some s4 ∧
      s4.fs (updates pre) = some (matFile d M ++ (vecsOf os).flatten) := by
    rw [c2] at f3 c3
    rcases hpost with rfl | ⟨M', p, rfl⟩
    · exact ⟨s3, rfl, f3⟩
    · have z4 : Sized d p := fun r x h => z3 r x (List.mem_cons_of_mem _ h)
      have i4 : Inv d (writeMat d M' { s3 with counter := s3.counter + 1 }) :=
        ⟨by show -1 ≤ s3.counter + 1; omega, fun _ => ⟨rfl, rfl⟩⟩
      obtain ⟨s5, e5, -, -, f5⟩ := run_ok asserts d p _ i4 z4
      refine ⟨s5, by simpa [run, step] using e5, ?_⟩
      rw [f5 _ (by show _ < s3.counter + 1; omega), ← f3]
      exact Function.update_of_ne (by show _ ≠ s3.counter + 1; omega) _ _
  obtain ⟨s4, e4, f4⟩ := last
  refine ⟨s4, _, savedOf d M (vecsOf os), ?_, f4, parses_savedOf d M _ (vecsOf_length d os z2),
    rfl, rfl, rfl, rfl, ?_, ?_, ?_, ?_, ?_, vecsOf_close os⟩
  · rw [run_append, e1, Option.bind_some]
    show (step asserts true d s1 (.update M)).bind _ = _
    have : step asserts true d s1 (.update M) = some s2 := rfl
    rw [this]
    show run asserts true d s2 (os ++ post) = _
    rw [run_append, e3]; exact e4
  · rw [rowp_savedOf d M _ 0 (by omega)]; simp [before]
  · rw [rowp_savedOf d M _ d.m le_rfl, ← countNnz_eq]; rfl
  · intro i hi
    rw [row_savedOf d M _ i hi]
    refine ⟨(nodup_rowCols _ _ _).map fun a b h => by simpa using h, fun c => ?_⟩
    rw [List.mem_map]
    constructor
    · rintro ⟨j, hj, rfl⟩
      exact ⟨j, rfl, (mem_rowCols _ _ _ _).mp hj⟩
    · rintro ⟨j, rfl, hj⟩
      exact ⟨j, (mem_rowCols _ _ _ _).mpr hj, rfl⟩
  · intro i j hij hj
    rw [entry_savedOf d M _ i j (by omega)]
    split_ifs with h
    · exact fmt_close _
    · have h' : |M (i * d.m + j)| ≤ zeroTol := not_lt.mp fun c => h ⟨hij, hj, c⟩
      unfold Close
      rw [zero_sub, abs_neg]
      refine h'.trans ?_
      unfold zeroTol; norm_num
  · intro i j hi hj
    rw [entry_savedOf d M _ i j hi, if_neg (by omega)]

/-- The symmetric matrix, as the reader completes it. -/
theorem C92_symmetric (d : Dims) (M : ℕ → ℝ) (S : Saved)
    (hM : ∀ i j, i < d.m → j < d.m → M (i * d.m + j) = M (j * d.m + i))
    (hS : ∀ i j, i ≤ j → j < d.m → Close (S.entry i j) (M (i * d.m + j))) :
    ∀ i j, i < d.m → j < d.m → Close (S.sym i j) (M (i * d.m + j)) := by
  intro i j hi hj
  unfold Saved.sym
  split_ifs with h
  · exact hS i j h hj
  · rw [hM i j hi hj]; exact hS j i (by omega) hi

/-- A file determines the system read from it. -/
theorem C92_reading_unique (f : List ℝ) (S T : Saved) (hS : Parses f S) (hT : Parses f T) :
    S.m = T.m ∧ S.nnz = T.nnz ∧ S.rowp = T.rowp ∧ S.cols = T.cols ∧ S.vals = T.vals ∧
      S.vecs.flatten = T.vecs.flatten := by
  have e := hS.eq.symm.trans hT.eq
  simp only [List.append_assoc, List.cons_append, List.nil_append, List.cons.injEq,
    Nat.cast_inj] at e
  obtain ⟨h1, -, -, -, h2, h3⟩ := e
  obtain ⟨h4, h5⟩ := List.append_inj h3 (by simp [hS.rowp, hT.rowp, h1])
  obtain ⟨h6, h7⟩ := List.append_inj h5 (by simp [hS.cols, hT.cols, h2])
  obtain ⟨h8, h9⟩ := List.append_inj h7 (by simp [hS.vals, hT.vals, h2])
  have inj : Function.Injective (fun n : ℕ => (n : ℝ)) := Nat.cast_injective
  exact ⟨h1, h2, List.map_injective_iff.mpr inj h4, List.map_injective_iff.mpr inj h6, h8, h9⟩

/-- A case of `C92_file_partial`: two matrices, a solve with each. -/
example : ∃ (d : Dims) (pre os post : List Op), 0 < d.m ∧ given os ≠ [] ∧ updates pre = 1 ∧ Solves os ∧
    (post = [] ∨ ∃ M' p, post = Op.update M' :: p) ∧
    Sized d (pre ++ Op.update (fun _ => 1) :: (os ++ post)) := by
  refine ⟨⟨1, 1, 0, 0⟩, [.update fun _ => 2, .solve [4] [2]], [.solve [3] [3]], [], by simp,
    by simp [given], rfl, rfl, Or.inl rfl, ?_⟩
  intro r x h
  simp at h
  rcases h with ⟨rfl, rfl⟩ | ⟨rfl, rfl⟩ <;> simp

/-- **C92, refuted: an entry of `10^-21` is listed as nonzero and written as zero.** The threshold is
`10^-25`, the format has twenty decimals: the matrix `(10^-21)` is read back as the singular matrix
with one stored entry, 0. -/
theorem C92_nonzero_refuted (nx meq mineq : ℕ) :
    ∃ S, Parses (matFile ⟨1, nx, meq, mineq⟩ fun _ => 1 / 10 ^ 21) S ∧ S.nnz = 1 ∧ S.vals = [0] ∧
      S.entry 0 0 = 0 := by
  generalize hc : (1 / 10 ^ 21 : ℝ) = c
  have hk : zeroTol < |c| := by
    rw [← hc, abs_of_pos (by positivity)]; unfold zeroTol; norm_num
  have hf : fmt c = 0 := by
    rw [← hc]
    have : (round ((1 / 10 ^ 21 : ℝ) * 10 ^ 20)) = 0 := by
      rw [round_eq_zero_iff]; constructor <;> norm_num
    rw [fmt, this]; norm_num
  have hr : rowCols 1 (fun _ => c) 0 = [0] := by
    simp only [rowCols, hk, decide_true]; rfl
  have hv := parses_savedOf ⟨1, nx, meq, mineq⟩ (fun _ => c) [] (by simp)
  rw [List.flatten_nil, List.append_nil] at hv
  have h1 : countNnz 1 (fun _ => c) = 1 := by
    rw [countNnz_eq, before_succ, hr]; simp [before]
  have h2 : entries 1 (fun _ => c) = [0] := by
    unfold entries
    rw [List.range_one, List.flatMap_cons, hr]
    simp [hf]
  have h3 := entry_savedOf ⟨1, nx, meq, mineq⟩ (fun _ => c) [] 0 0 (by simp)
  rw [hf, ite_self] at h3
  exact ⟨savedOf ⟨1, nx, meq, mineq⟩ (fun _ => c) [], hv, h1, h2, h3⟩

/-- **C92, refuted for the normal equation.** Its class counts and writes vectors, but never a matrix:
with assertions the first solve aborts; without them no number at all gets into any file, and files of
an earlier run stay as they were, to be taken for those of this run. -/
theorem C92_normal_equation_refuted (d : Dims) (fs : ℤ → Option (List ℝ)) (M : ℕ → ℝ)
    (r x : List ℝ) :
    run true false d (fresh fs) [.update M, .solve r x] = none ∧
    ∀ f, fs 0 = some f → ∃ s, run false false d (fresh fs) [.update M, .solve r x] = some s ∧
      s.fs 0 = some f := by
  refine ⟨by simp [run, step, fresh, writeVec], ?_⟩
  intro f hf
  exact ⟨_, by simp [run, step, fresh, writeVec]; rfl, by simp [hf]⟩

/-- **C92, refuted for a second solver in the same directory** (a second run, the restoration problem,
or another class of system in the same run): its files replace those of the first. -/
theorem C92_second_solver_refuted (a : Bool) (d : Dims) (fs : ℤ → Option (List ℝ)) (M M' : ℕ → ℝ) :
    ∃ s s', run a true d (fresh fs) [.update M] = some s ∧ s.fs 0 = some (matFile d M) ∧
      run a true d (fresh s.fs) [.update M'] = some s' ∧ s'.fs 0 = some (matFile d M') := by
  refine ⟨_, _, rfl, ?_, rfl, ?_⟩ <;> simp [writeMat, fresh]

end Hiop.KktFile
