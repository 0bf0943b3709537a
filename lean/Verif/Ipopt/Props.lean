import Mathlib.Tactic.Ring
import Mathlib.Tactic.Linarith
import Mathlib.Data.List.Nodup
import Mathlib.Algebra.Group.Nat.Even
import Mathlib.Data.Nat.Choose.Basic
import Verif.Ipopt.Model

/-!
# C67: Ipopt sees the problem that was given to HiOp
-/

set_option linter.unusedSectionVars false

namespace Hiop.Ipopt

variable {K : Type} [AddCommMonoid K]

/-! ## Specification -/

/-- The matrix given by a structure and values: entries with the same place are added. -/
def denote (T : List (ℕ × ℕ)) (v : List K) (i j : ℕ) : K :=
  (((T.zip v).filter fun e => e.1 = (i, j)).map (·.2)).sum

/-- A problem: constraints, Jacobian, Hessian of the Lagrangian. -/
structure Prob (K : Type) where
  g : List K → ℕ → K
  J : List K → ℕ → ℕ → K
  H : List K → K → List K → ℕ → ℕ → K

/-- The user gives the rows `idx` of the Jacobian: a sparse part with rows counted within `idx`, and a dense part. -/
def JacPart (D : Dims) (P : Prob K) (idx : List ℕ) (nnz : ℕ) (S : Option (List (ℕ × ℕ)))
    (V : List K → Option (List K × List K)) : Prop :=
  ∃ st, S = some st ∧ st.length = nnz ∧ (∀ p ∈ st, p.1 < idx.length ∧ p.2 < D.nS) ∧
    ∀ x, ∃ v, V x = some (v, idx.flatMap fun i => (List.range D.nD).map fun j => P.J x i (j + D.nS)) ∧
      v.length = nnz ∧ ∀ r (h : r < idx.length) c, c < D.nS → denote st v r c = P.J x idx[r] c

/-- The user gives the upper triangle of the Hessian: a sparse and a dense part and nothing between them. -/
def HessPart (D : Dims) (P : Prob K) (U : User K) : Prop :=
  ∃ st, U.hessS = some st ∧ st.length = D.nnzH ∧ (∀ p ∈ st, p.1 ≤ p.2 ∧ p.2 < D.nS) ∧
    ∀ x f lam, (∀ i j, i < D.nS → D.nS ≤ j → P.H x f lam i j = 0) ∧
      ∃ v, U.hessV x f lam = some (v, (List.range D.nD).flatMap fun i =>
          (List.range D.nD).map fun j => P.H x f lam (D.nS + i) (D.nS + j)) ∧
        v.length = D.nnzH ∧ ∀ i j, i ≤ j → j < D.nS → denote st v i j = P.H x f lam i j

/-- A user who implements the calls for some of the constraints. -/
structure Separate (D : Dims) (U : User K) (P : Prob K) : Prop where
  consEq : ∀ x, U.consSome D.eqIdx x = some (D.eqIdx.map (P.g x))
  consIneq : ∀ x, U.consSome D.ineqIdx x = some (D.ineqIdx.map (P.g x))
  jacEq : JacPart D P D.eqIdx D.nnzEq (U.jacSomeS D.eqIdx) (U.jacSomeV D.eqIdx)
  jacIneq : JacPart D P D.ineqIdx D.nnzIneq (U.jacSomeS D.ineqIdx) (U.jacSomeV D.ineqIdx)
  hess : HessPart D P U

/-- A user who implements the calls for all constraints and returns false from the others. -/
structure OneCall (D : Dims) (U : User K) (P : Prob K) : Prop where
  consSome : ∀ idx x, U.consSome idx x = none
  consAll : ∀ x, U.consAll x = some ((List.range D.m).map (P.g x))
  jacSomeS : ∀ idx, U.jacSomeS idx = none
  jacSomeV : ∀ idx x, U.jacSomeV idx x = none
  jacAll : JacPart D P (List.range D.m) (D.nnzEq + D.nnzIneq) U.jacAllS U.jacAllV
  hess : HessPart D P U

/-- The answer is that of the problem, where `T`, `TH` are the structures of Jacobian and Hessian: the values of all
constraints; the structure; values that make up the Jacobian together with the structure; and for the Hessian its
upper triangle. -/
def Right (D : Dims) (P : Prob K) (T TH : List (ℕ × ℕ)) : Op K → Ans K → Prop
  | .g x _, .g a => ∀ i < D.m, a i = P.g x i
  | .jacS, .str l => l = T
  | .jacV x, .vals v => v.length = T.length ∧
      ∀ i j, denote T v i j = if i < D.m ∧ j < D.nS + D.nD then P.J x i j else 0
  | .hessS, .str l => l = TH
  | .hessV x f lam, .vals v => v.length = TH.length ∧
      ∀ i j, denote TH v i j = if i ≤ j ∧ j < D.nS + D.nD then P.H x f lam i j else 0
  | .finalize, .done => True
  | _, _ => False

/-! ## Lemmas on the denoted matrix -/

theorem denote_append {T1 T2 : List (ℕ × ℕ)} {v1 v2 : List K} (h : T1.length = v1.length) (i j : ℕ) :
    denote (T1 ++ T2) (v1 ++ v2) i j = denote T1 v1 i j + denote T2 v2 i j := by
  simp only [denote, List.zip_append h, List.filter_append, List.map_append, List.sum_append]

theorem denote_eq_zero {T : List (ℕ × ℕ)} {v : List K} {i j : ℕ} (h : (i, j) ∉ T) : denote T v i j = 0 := by
  have : (T.zip v).filter (fun e => e.1 = (i, j)) = [] := by
    rw [List.filter_eq_nil_iff]
    intro e he
    have := (List.of_mem_zip he).1
    simp only [decide_eq_true_eq]
    intro h2
    exact h (h2 ▸ this)
  simp [denote, this]

theorem denote_single (a b : ℕ) (w : K) (i j : ℕ) : denote [(a, b)] [w] i j = if a = i ∧ b = j then w else 0 := by
  simp only [denote, List.zip_cons_cons, List.zip_nil_left, List.filter_cons, List.filter_nil, Prod.mk.injEq,
    decide_eq_true_eq]
  split <;> simp

theorem denote_shift (T : List (ℕ × ℕ)) (v : List K) (k i j : ℕ) :
    denote (T.map fun p => (p.1 + k, p.2)) v i j = if k ≤ i then denote T v (i - k) j else 0 := by
  induction T generalizing v with
  | nil => simp [denote]
  | cons p T ih =>
    cases v with
    | nil => simp [denote]
    | cons a v =>
      have := ih v
      simp only [denote, List.map_cons, List.zip_cons_cons, List.filter_cons] at this ⊢
      obtain ⟨r, c⟩ := p
      by_cases hk : k ≤ i
      · by_cases h : r = i - k ∧ c = j
        · obtain ⟨rfl, rfl⟩ := h
          have e : i - k + k = i := by omega
          simp only [e, decide_true, if_true, List.map_cons, List.sum_cons, this, hk, if_true]
        · have h' : ¬ (r + k = i ∧ c = j) := by rintro ⟨h1, h2⟩; exact h ⟨by omega, h2⟩
          simp only [Prod.mk.injEq, h, h', decide_false, Bool.false_eq_true, if_false]
          simpa [hk] using this
      · have h' : ¬ (r + k = i ∧ c = j) := by rintro ⟨h1, h2⟩; omega
        simp only [Prod.mk.injEq, h', decide_false, Bool.false_eq_true, if_false, hk]
        rw [if_neg hk] at this
        simpa using this

/-- One row. -/
theorem denote_row (r o n : ℕ) (w : ℕ → K) (i j : ℕ) :
    denote ((List.range n).map fun k => (r, k + o)) ((List.range n).map fun k => w (k + o)) i j =
      if i = r ∧ o ≤ j ∧ j < o + n then w j else 0 := by
  induction n with
  | zero =>
    rw [if_neg (by omega)]
    simp [denote]
  | succ n ih =>
    rw [List.range_succ, List.map_append, List.map_append, denote_append (by simp), ih]
    simp only [List.map_cons, List.map_nil, denote_single]
    by_cases h : r = i ∧ n + o = j
    · obtain ⟨rfl, rfl⟩ := h
      rw [if_neg (by omega), if_pos ⟨rfl, rfl⟩, if_pos (by omega), zero_add]
    · rw [if_neg h, add_zero]
      by_cases h2 : i = r ∧ o ≤ j ∧ j < o + n
      · rw [if_pos h2, if_pos (by omega)]
      · rw [if_neg h2, if_neg (by omega)]

theorem denote_dense (D : Dims) (rows : List ℕ) (hn : rows.Nodup) (w : ℕ → ℕ → K) (i j : ℕ) :
    denote (denseS D rows) (rows.flatMap fun i => (List.range D.nD).map fun j => w i (j + D.nS)) i j =
      if i ∈ rows ∧ D.nS ≤ j ∧ j < D.nS + D.nD then w i j else 0 := by
  induction rows with
  | nil => simp [denote, denseS]
  | cons r l ih =>
    obtain ⟨h1, h2⟩ := List.nodup_cons.1 hn
    have := ih h2
    unfold denseS at this ⊢
    rw [List.flatMap_cons, List.flatMap_cons, denote_append (by simp), this, denote_row]
    by_cases hj : D.nS ≤ j ∧ j < D.nS + D.nD
    · by_cases hr : i = r
      · subst hr
        simp [hj, h1]
      · simp [hj, hr]
    · simp [hj]

theorem denseS_length (D : Dims) (rows : List ℕ) : (denseS D rows).length = rows.length * D.nD := by
  simp [denseS, List.length_flatMap]

theorem denseV_length (n : ℕ) (rows : List ℕ) (w : ℕ → ℕ → K) :
    (rows.flatMap fun i => (List.range n).map fun j => w i j).length = rows.length * n := by
  simp [List.length_flatMap]

/-! ## Equalities and inequalities -/

theorem eqIdx_nodup (D : Dims) : D.eqIdx.Nodup := List.nodup_range.filter _

theorem ineqIdx_nodup (D : Dims) : D.ineqIdx.Nodup := List.nodup_range.filter _

theorem mem_eqIdx {D : Dims} {i : ℕ} : i ∈ D.eqIdx ↔ i < D.m ∧ D.isEq i = true := by simp [Dims.eqIdx]

theorem mem_ineqIdx {D : Dims} {i : ℕ} : i ∈ D.ineqIdx ↔ i < D.m ∧ D.isEq i = false := by simp [Dims.ineqIdx]

theorem lengths (D : Dims) : D.eqIdx.length + D.ineqIdx.length = D.m := by
  have h := List.length_eq_length_filter_add (l := List.range D.m) D.isEq
  rw [List.length_range] at h
  unfold Dims.eqIdx Dims.ineqIdx
  omega

/-- The equalities come before the inequalities. -/
def Ordered (D : Dims) : Prop := ∀ i j, i < j → j < D.m → D.isEq j = true → D.isEq i = true

/-- The place where the adapter puts things: equalities first. -/
def place (D : Dims) : List ℕ := D.eqIdx ++ D.ineqIdx

theorem filters_range (p : ℕ → Bool) (m : ℕ) (h : ∀ i j, i < j → j < m → p j = true → p i = true) :
    (List.range m).filter p ++ (List.range m).filter (fun i => !p i) = List.range m := by
  induction m with
  | zero => rfl
  | succ m ih =>
    have ih := ih (fun i j h1 h2 h3 => h i j h1 (by omega) h3)
    rw [List.range_succ, List.filter_append, List.filter_append]
    cases hp : p m with
    | true =>
      have h1 : (List.range m).filter (fun i => !p i) = [] := by
        rw [List.filter_eq_nil_iff]
        intro i hi
        simp [h i m (List.mem_range.1 hi) (by omega) hp]
      have h2 : (List.range m).filter p = List.range m := by
        rw [List.filter_eq_self]
        intro i hi
        exact h i m (List.mem_range.1 hi) (by omega) hp
      simp [h1, h2, hp]
    | false =>
      simp only [List.filter_cons, List.filter_nil, hp]
      simp only [Bool.false_eq_true, if_false, Bool.not_false, if_true, List.append_nil]
      rw [← List.append_assoc, ih]

theorem place_ordered {D : Dims} (h : Ordered D) : place D = List.range D.m := filters_range D.isEq D.m h

theorem place_length (D : Dims) : (place D).length = D.m := by rw [place, List.length_append, lengths]

/-! ## Constraints -/

theorem scatter_spec (idx : List ℕ) (f : ℕ → K) (g : ℕ → K) (i : ℕ) :
    scatter idx (idx.map f) g i = if i ∈ idx then f i else g i := by
  unfold scatter
  induction idx generalizing g with
  | nil => rfl
  | cons a l ih =>
    simp only [List.map_cons, List.zip_cons_cons, List.foldl_cons]
    rw [ih]
    by_cases h : i ∈ l
    · simp [h]
    · by_cases h2 : i = a
      · subst h2; simp [h]
      · simp [h, h2]

theorem g_separate {D : Dims} {U : User K} {P : Prob K} (h : Separate D U P) (x : List K) (g : ℕ → K) :
    (evalG D U x g).1 = true ∧ ∀ i < D.m, (evalG D U x g).2 i = P.g x i := by
  unfold evalG
  rw [h.consEq, h.consIneq]
  refine ⟨rfl, fun i hi => ?_⟩
  simp only [scatter_spec, mem_eqIdx, mem_ineqIdx, hi, true_and]
  cases D.isEq i <;> simp

theorem g_one {D : Dims} {U : User K} {P : Prob K} (h : OneCall D U P) (x : List K) (g : ℕ → K) :
    (evalG D U x g).1 = true ∧ ∀ i < D.m, (evalG D U x g).2 i = P.g x i := by
  unfold evalG
  simp only [h.consSome, h.consAll]
  refine ⟨rfl, fun i hi => ?_⟩
  simp [copyAll, hi]

/-! ## Jacobian -/

/-- What the adapter's structure and values denote for a user with separate calls. -/
theorem jac_separate {D : Dims} {U : User K} {P : Prob K} (h : Separate D U P) :
    ∃ T : List (ℕ × ℕ), T.length = D.neleJac ∧ (∀ asserts, jacS asserts D U = .ok T) ∧
      ∀ x, ∃ v : List K, v.length = T.length ∧
        (∀ asserts (s : St), s.one = false → s.deq = s.dineq →
          jacV asserts D U x s = ({ s with deq := true, dineq := true }, .ok v)) ∧
        ∀ i j, denote T v i j = if i < D.m ∧ j < D.nS + D.nD then
          (if j < D.nS then P.J x ((place D).getD i 0) j else P.J x i j) else 0 := by
  obtain ⟨e, he, hel, her, heV⟩ := h.jacEq
  obtain ⟨q, hq, hql, hqr, hqV⟩ := h.jacIneq
  have hlen := lengths D
  have hm : D.eqIdx.length * D.nD + D.ineqIdx.length * D.nD = D.m * D.nD := by rw [← Nat.add_mul, hlen]
  refine ⟨e ++ denseS D D.eqIdx ++ q.map (fun p => (p.1 + D.eqIdx.length, p.2)) ++ denseS D D.ineqIdx, ?_, ?_, ?_⟩
  · simp only [List.length_append, List.length_map, denseS_length, hel, hql, Dims.neleJac]
    omega
  · intro asserts
    unfold jacS
    rw [he, hq]
    simp only []
    rw [check, if_neg]
    simp only [List.length_append, List.length_map, denseS_length, hel, hql, Dims.neleJac, Bool.and_eq_true,
      Bool.not_eq_true', beq_eq_false_iff_ne, not_and, ne_eq, not_not]
    intro _
    omega
  · intro x
    obtain ⟨ve, hve, hvel, hved⟩ := heV x
    obtain ⟨vq, hvq, hvql, hvqd⟩ := hqV x
    refine ⟨ve ++ (D.eqIdx.flatMap fun i => (List.range D.nD).map fun j => P.J x i (j + D.nS)) ++ vq ++
      (D.ineqIdx.flatMap fun i => (List.range D.nD).map fun j => P.J x i (j + D.nS)), ?_, ?_, ?_⟩
    · simp only [List.length_append, List.length_map, denseS_length, hel, hql, hvel, hvql,
        denseV_length D.nD _ (fun i j => P.J x i (j + D.nS))]
    · intro asserts s h1 h2
      unfold jacV
      rw [hve, hvq, h1, ← h2]
      have : (!s.deq && asserts && s.deq) = false := by cases s.deq <;> simp
      simp only [Bool.false_eq_true, if_false, this]
      rw [check, if_neg]
      simp only [List.length_append, hvel, hvql, denseV_length D.nD _ (fun i j => P.J x i (j + D.nS)), Dims.neleJac,
        Bool.and_eq_true, Bool.not_eq_true', beq_eq_false_iff_ne, not_and, ne_eq, not_not]
      intro _
      omega
    · intro i j
      rw [denote_append (by simp [denseS_length, hel, hql, hvel, hvql, denseV_length D.nD _ (fun i j => P.J x i (j + D.nS))]),
        denote_append (by simp [denseS_length, hel, hvel, denseV_length D.nD _ (fun i j => P.J x i (j + D.nS))]),
        denote_append (by rw [hel, hvel]), denote_dense D _ (eqIdx_nodup D) (P.J x),
        denote_dense D _ (ineqIdx_nodup D) (P.J x), denote_shift]
      by_cases hj : j < D.nS
      · -- the sparse columns
        have nd : ¬ (D.nS ≤ j ∧ j < D.nS + D.nD) := by omega
        have n1 : ¬ (i ∈ D.eqIdx ∧ D.nS ≤ j ∧ j < D.nS + D.nD) := fun h => nd h.2
        have n2 : ¬ (i ∈ D.ineqIdx ∧ D.nS ≤ j ∧ j < D.nS + D.nD) := fun h => nd h.2
        rw [if_neg n1, if_neg n2, add_zero, add_zero]
        by_cases hi : i < D.m
        · have hc : i < D.m ∧ j < D.nS + D.nD := ⟨hi, by omega⟩
          rw [if_pos hc, if_pos hj]
          by_cases hie : i < D.eqIdx.length
          · rw [if_neg (not_le.2 hie), add_zero, hved i hie j hj]
            simp [place, List.getD, List.getElem?_append_left hie, hie]
          · have h2 : i - D.eqIdx.length < D.ineqIdx.length := by omega
            rw [if_pos (not_lt.1 hie), hvqd _ h2 j hj, denote_eq_zero, zero_add]
            · simp [place, List.getD, List.getElem?_append_right (not_lt.1 hie), h2]
            · intro hmem; exact hie (her _ hmem).1
        · have hc : ¬ (i < D.m ∧ j < D.nS + D.nD) := fun h => hi h.1
          rw [if_neg hc, denote_eq_zero, zero_add]
          · split
            · rw [denote_eq_zero]
              intro hmem; have := (hqr _ hmem).1; simp only at this; omega
            · rfl
          · intro hmem; have := (her _ hmem).1; simp only at this; omega
      · -- the dense columns
        have z1 : denote e ve i j = 0 := denote_eq_zero (fun hmem => hj (her _ hmem).2)
        have z2 : denote q vq (i - D.eqIdx.length) j = 0 := denote_eq_zero (fun hmem => hj (hqr _ hmem).2)
        rw [z1, z2, ite_self, zero_add, add_zero, if_neg hj]
        simp only [mem_eqIdx, mem_ineqIdx]
        by_cases hjd : j < D.nS + D.nD
        · by_cases hi : i < D.m
          · cases D.isEq i <;> simp [hi, hjd, not_lt.1 hj]
          · simp [hi]
        · simp [hjd]

/-- The same for a user with one call for all: always the Jacobian. -/
theorem jac_one {D : Dims} {U : User K} {P : Prob K} (h : OneCall D U P) :
    ∃ T : List (ℕ × ℕ), T.length = D.neleJac ∧ (∀ asserts, jacS asserts D U = .ok T) ∧
      ∀ x, ∃ v : List K, v.length = T.length ∧
        (∀ asserts (s : St), s.deq = false → s.dineq = false →
          jacV asserts D U x s = (⟨true, false, false, true⟩, .ok v)) ∧
        ∀ i j, denote T v i j = if i < D.m ∧ j < D.nS + D.nD then P.J x i j else 0 := by
  obtain ⟨e, he, hel, her, heV⟩ := h.jacAll
  refine ⟨e ++ denseS D (List.range D.m), ?_, ?_, ?_⟩
  · simp only [List.length_append, denseS_length, hel, Dims.neleJac, List.length_range]
  · intro asserts
    unfold jacS
    rw [h.jacSomeS, h.jacSomeS, he]
    simp [check, denseS_length, hel, Dims.neleJac]
  · intro x
    obtain ⟨v, hv, hvl, hvd⟩ := heV x
    refine ⟨v ++ (List.range D.m).flatMap fun i => (List.range D.nD).map fun j => P.J x i (j + D.nS), ?_, ?_, ?_⟩
    · simp only [List.length_append, denseS_length, hel, hvl, denseV_length D.nD _ (fun i j => P.J x i (j + D.nS))]
    · intro asserts s h1 h2
      obtain ⟨o, a, b, c⟩ := s
      simp only at h1 h2
      subst h1 h2
      have hl : (v ++ (List.range D.m).flatMap fun i => (List.range D.nD).map fun j => P.J x i (j + D.nS)).length =
          D.neleJac := by
        simp only [List.length_append, hvl, denseV_length D.nD _ (fun i j => P.J x i (j + D.nS)), Dims.neleJac,
          List.length_range]
      cases o <;> simp [jacV, jacVall, h.jacSomeV, hv, check] <;> intro _ <;>
        simpa using hl
    · intro i j
      rw [denote_append (by rw [hel, hvl]), denote_dense D _ List.nodup_range (P.J x)]
      simp only [List.mem_range]
      by_cases hj : j < D.nS
      · rw [if_neg (by omega), add_zero]
        by_cases hi : i < D.m
        · rw [if_pos ⟨hi, by omega⟩, hvd i (by simpa using hi) j hj]
          simp
        · rw [if_neg (by tauto), denote_eq_zero]
          intro hmem; exact hi (by simpa using (her _ hmem).1)
      · rw [denote_eq_zero (fun hmem => hj (her _ hmem).2), zero_add]
        by_cases hi : i < D.m <;> by_cases hjd : j < D.nS + D.nD <;> simp [hi, hjd, not_lt.1 hj]

/-! ## Hessian -/

theorem triangle_length (n : ℕ) : ((List.range n).map fun i => n - i).sum = n * (n + 1) / 2 := by
  have h : ∀ n, 2 * ((List.range n).map fun i => n - i).sum = n * (n + 1) := by
    intro n
    have aux : ∀ k ≤ n, 2 * ((List.range k).map fun i => n - i).sum + k * k = k * (2 * n + 1) := by
      intro k
      induction k with
      | zero => simp
      | succ k ih =>
        intro hk
        have := ih (by omega)
        rw [List.range_succ, List.map_append, List.sum_append]
        simp only [List.map_cons, List.map_nil, List.sum_cons, List.sum_nil, add_zero]
        obtain ⟨d, rfl⟩ : ∃ d, n = k + 1 + d := ⟨n - (k + 1), by omega⟩
        have e : k + 1 + d - k = d + 1 := by omega
        rw [e]
        nlinarith
    have := aux n le_rfl
    nlinarith
  have := h n
  omega

theorem denote_triangle_row (o n r k : ℕ) (w : ℕ → ℕ → K) (i j : ℕ) :
    denote ((List.range' r k).map fun c => (o + n, o + c)) ((List.range' r k).map fun c => w (o + n) (o + c)) i j =
      if i = o + n ∧ o + r ≤ j ∧ j < o + r + k then w i j else 0 := by
  induction k generalizing r with
  | zero => rw [if_neg (by omega)]; simp [denote]
  | succ k ih =>
    rw [List.range'_succ, List.map_cons, List.map_cons]
    have := denote_append (T1 := [(o + n, o + r)]) (v1 := [w (o + n) (o + r)])
      (T2 := (List.range' (r + 1) k).map fun c => (o + n, o + c))
      (v2 := (List.range' (r + 1) k).map fun c => w (o + n) (o + c)) (by simp) i j
    rw [List.singleton_append, List.singleton_append] at this
    rw [this, ih]
    rw [denote_single]
    by_cases h : o + n = i ∧ o + r = j
    · obtain ⟨rfl, rfl⟩ := h
      rw [if_pos ⟨rfl, rfl⟩, if_neg (by omega), if_pos (by omega), add_zero]
    · rw [if_neg h, zero_add]
      by_cases h2 : i = o + n ∧ o + (r + 1) ≤ j ∧ j < o + (r + 1) + k
      · rw [if_pos h2, if_pos (by omega)]
      · rw [if_neg h2, if_neg (by omega)]

theorem denote_triangle (o n N : ℕ) (hN : N ≤ n) (w : ℕ → ℕ → K) (i j : ℕ) :
    denote ((List.range N).flatMap fun r => (List.range' r (n - r)).map fun c => (o + r, o + c))
        ((List.range N).flatMap fun r => (List.range' r (n - r)).map fun c => w (o + r) (o + c)) i j =
      if o ≤ i ∧ i < o + N ∧ i ≤ j ∧ j < o + n then w i j else 0 := by
  induction N with
  | zero => rw [if_neg (by omega)]; simp [denote]
  | succ N ih =>
    rw [List.range_succ, List.flatMap_append, List.flatMap_append, denote_append (by simp [List.length_flatMap]),
      ih (by omega)]
    simp only [List.flatMap_cons, List.flatMap_nil, List.append_nil]
    rw [denote_triangle_row]
    by_cases h1 : o ≤ i ∧ i < o + N ∧ i ≤ j ∧ j < o + n
    · rw [if_pos h1, if_neg (by omega), if_pos (by omega), add_zero]
    · rw [if_neg h1, zero_add]
      by_cases h2 : i = o + N ∧ o + N ≤ j ∧ j < o + N + (n - N)
      · rw [if_pos h2, if_pos (by omega)]
      · rw [if_neg h2, if_neg (by omega)]

theorem flat_get (n : ℕ) (w : ℕ → ℕ → K) (N i j : ℕ) (hi : i < N) (hj : j < n) :
    ((List.range N).flatMap fun r => (List.range n).map fun c => w r c)[i * n + j]? = some (w i j) := by
  induction N with
  | zero => omega
  | succ N ih =>
    rw [List.range_succ, List.flatMap_append]
    have hl : ((List.range N).flatMap fun r => (List.range n).map fun c => w r c).length = N * n := by
      simp [List.length_flatMap]
    by_cases h : i < N
    · rw [List.getElem?_append_left, ih h]
      rw [hl]
      have : (i + 1) * n ≤ N * n := Nat.mul_le_mul_right n h
      rw [Nat.add_mul] at this
      omega
    · obtain rfl : i = N := by omega
      rw [List.getElem?_append_right (by rw [hl]; omega), hl]
      simp [hj]

theorem hess_right {D : Dims} {U : User K} {P : Prob K} (h : HessPart D P U) :
    ∃ T : List (ℕ × ℕ), T.length = D.neleHess ∧ (∀ asserts, hessS asserts D U = .ok T) ∧
      ∀ x f lam, ∃ v : List K, v.length = T.length ∧ (∀ asserts, hessV asserts D U x f lam = .ok v) ∧
        ∀ i j, denote T v i j = if i ≤ j ∧ j < D.nS + D.nD then P.H x f lam i j else 0 := by
  obtain ⟨e, he, hel, her, heV⟩ := h
  have tl := triangle_length D.nD
  refine ⟨e ++ (List.range D.nD).flatMap fun i => (List.range' i (D.nD - i)).map fun j => (D.nS + i, D.nS + j),
    ?_, ?_, ?_⟩
  · simp only [List.length_append, List.length_flatMap, List.length_map, List.length_range', hel, Dims.neleHess, tl]
  · intro asserts
    simp only [hessS, he, check, List.length_append, List.length_flatMap, List.length_map, List.length_range', hel,
      Dims.neleHess, tl, beq_self_eq_true, Bool.not_true, Bool.and_false, Bool.false_eq_true, if_false]
  · intro x f lam
    obtain ⟨hz, v, hv, hvl, hvd⟩ := heV x f lam
    have hd : ((List.range D.nD).flatMap fun i => (List.range' i (D.nD - i)).map fun j =>
        ((((List.range D.nD).flatMap fun i =>
          (List.range D.nD).map fun j => P.H x f lam (D.nS + i) (D.nS + j))[i * D.nD + j]?).getD 0)) =
        (List.range D.nD).flatMap fun i => (List.range' i (D.nD - i)).map fun j =>
          P.H x f lam (D.nS + i) (D.nS + j) := by
      rw [List.flatMap_congr]
      intro i hi
      apply List.map_congr_left
      intro j hj
      have h1 := List.mem_range.1 hi
      have h2 := List.mem_range'_1.1 hj
      rw [flat_get D.nD (fun i j => P.H x f lam (D.nS + i) (D.nS + j)) D.nD i j h1 (by omega)]
      rfl
    refine ⟨v ++ (List.range D.nD).flatMap fun i => (List.range' i (D.nD - i)).map fun j =>
          P.H x f lam (D.nS + i) (D.nS + j), ?_, ?_, ?_⟩
    · simp only [List.length_append, List.length_flatMap, List.length_map, List.length_range', hel, hvl]
    · intro asserts
      simp only [hessV, hv, hd, check, List.length_append, List.length_flatMap, List.length_map, List.length_range',
        hvl, Dims.neleHess, tl, beq_self_eq_true, Bool.not_true, Bool.and_false, Bool.false_eq_true, if_false]
    · intro i j
      rw [denote_append (by rw [hel, hvl]), denote_triangle D.nS D.nD D.nD le_rfl (P.H x f lam)]
      by_cases hj : j < D.nS
      · rw [if_neg (by omega), add_zero]
        by_cases hi : i ≤ j
        · rw [if_pos ⟨hi, by omega⟩, hvd i j hi hj]
        · rw [if_neg (by tauto), denote_eq_zero]
          intro hmem; exact hi (her _ hmem).1
      · rw [denote_eq_zero (fun hmem => hj (her _ hmem).2), zero_add]
        by_cases hi : D.nS ≤ i
        · by_cases h2 : i ≤ j ∧ j < D.nS + D.nD
          · rw [if_pos ⟨hi, by omega, h2.1, h2.2⟩, if_pos h2]
          · rw [if_neg (by tauto), if_neg h2]
        · rw [if_neg (by tauto)]
          split
          · exact (hz i j (by omega) (by omega)).symm
          · rfl

/-! ## Histories -/

theorem answers_separate {D : Dims} {U : User K} {P : Prob K} (h : Separate D U P) (ho : Ordered D) :
    ∃ T TH : List (ℕ × ℕ), T.length = D.neleJac ∧ TH.length = D.neleHess ∧ ∀ asserts (ops : List (Op K)) (s : St),
      s.one = false → s.deq = s.dineq → List.Forall₂ (Right D P T TH) ops (runOps asserts D U s ops) := by
  obtain ⟨T, hT, hTS, hTV⟩ := jac_separate h
  obtain ⟨TH, hTH, hHS, hHV⟩ := hess_right h.hess
  refine ⟨T, TH, hT, hTH, fun asserts ops => ?_⟩
  induction ops with
  | nil => intro s _ _; exact .nil
  | cons o l ih =>
    intro s h1 h2
    rw [runOps]
    cases o with
    | g x old =>
      obtain ⟨ha, hb⟩ := g_separate h x old
      exact .cons (by simpa [step, ha, Right] using hb) (ih s h1 h2)
    | jacS => exact .cons (by simp [step, hTS asserts, Res.ans, Right]) (ih s h1 h2)
    | jacV x =>
      obtain ⟨v, hl, hv, hd⟩ := hTV x
      have e : step asserts D U s (.jacV x) = ({ s with deq := true, dineq := true }, .vals v) := by
        simp [step, hv asserts s h1 h2, Res.ans]
      rw [e]
      refine .cons ⟨hl, fun i j => ?_⟩ (ih _ h1 rfl)
      rw [hd i j, place_ordered ho]
      by_cases hc : i < D.m ∧ j < D.nS + D.nD
      · rw [if_pos hc, if_pos hc]
        simp [List.getD, hc.1]
      · rw [if_neg hc, if_neg hc]
    | hessS => exact .cons (by simp [step, hHS asserts, Res.ans, Right]) (ih s h1 h2)
    | hessV x f lam =>
      obtain ⟨v, hl, hv, hd⟩ := hHV x f lam
      exact .cons (by simpa [step, hv asserts, Res.ans, Right] using ⟨hl, hd⟩) (ih s h1 h2)
    | finalize => exact .cons trivial (ih _ rfl rfl)

theorem answers_one {D : Dims} {U : User K} {P : Prob K} (h : OneCall D U P) :
    ∃ T TH : List (ℕ × ℕ), T.length = D.neleJac ∧ TH.length = D.neleHess ∧ ∀ asserts (ops : List (Op K)) (s : St),
      s.deq = false → s.dineq = false → List.Forall₂ (Right D P T TH) ops (runOps asserts D U s ops) := by
  obtain ⟨T, hT, hTS, hTV⟩ := jac_one h
  obtain ⟨TH, hTH, hHS, hHV⟩ := hess_right h.hess
  refine ⟨T, TH, hT, hTH, fun asserts ops => ?_⟩
  induction ops with
  | nil => intro s _ _; exact .nil
  | cons o l ih =>
    intro s h1 h2
    rw [runOps]
    cases o with
    | g x old =>
      obtain ⟨ha, hb⟩ := g_one h x old
      exact .cons (by simpa [step, ha, Right] using hb) (ih s h1 h2)
    | jacS => exact .cons (by simp [step, hTS asserts, Res.ans, Right]) (ih s h1 h2)
    | jacV x =>
      obtain ⟨v, hl, hv, hd⟩ := hTV x
      have e : step asserts D U s (.jacV x) = (⟨true, false, false, true⟩, .vals v) := by
        simp [step, hv asserts s h1 h2, Res.ans]
      rw [e]
      exact .cons ⟨hl, hd⟩ (ih _ rfl rfl)
    | hessS => exact .cons (by simp [step, hHS asserts, Res.ans, Right]) (ih s h1 h2)
    | hessV x f lam =>
      obtain ⟨v, hl, hv, hd⟩ := hHV x f lam
      exact .cons (by simpa [step, hv asserts, Res.ans, Right] using ⟨hl, hd⟩) (ih s h1 h2)
    | finalize => exact .cons trivial (ih _ rfl rfl)

/-! ## C67 -/

/-- **C67 (users with one call for all constraints)**: whatever Ipopt asks, in whatever order and over any number of
solves with the adapter, with assertions on or off: every answer is that of the problem; the structures are fixed and
have the announced sizes. -/
theorem C67_one_call {D : Dims} {U : User K} {P : Prob K} (h : OneCall D U P) :
    ∃ T TH : List (ℕ × ℕ), T.length = D.neleJac ∧ TH.length = D.neleHess ∧ ∀ asserts (ops : List (Op K)),
      List.Forall₂ (Right D P T TH) ops (runOps asserts D U .new ops) := by
  obtain ⟨T, TH, h1, h2, h3⟩ := answers_one h
  exact ⟨T, TH, h1, h2, fun a ops => h3 a ops .new rfl rfl⟩

/-- **C67 (users with separate calls), partial**: the same if the equalities come before the inequalities. Missing:
any other order, where it is false (`C67_rows`, `C67_order_false`). -/
theorem C67_separate_partial {D : Dims} {U : User K} {P : Prob K} (h : Separate D U P) (ho : Ordered D) :
    ∃ T TH : List (ℕ × ℕ), T.length = D.neleJac ∧ TH.length = D.neleHess ∧ ∀ asserts (ops : List (Op K)),
      List.Forall₂ (Right D P T TH) ops (runOps asserts D U .new ops) := by
  obtain ⟨T, TH, h1, h2, h3⟩ := answers_separate h ho
  exact ⟨T, TH, h1, h2, fun a ops => h3 a ops .new rfl rfl⟩

/-- **C67 (rows)**: in any order of the constraints, row `i` of the Jacobian Ipopt gets holds in its sparse columns
the derivatives of the `i`-th constraint of the list "equalities first", and in its dense columns those of constraint
`i`. -/
theorem C67_rows {D : Dims} {U : User K} {P : Prob K} (h : Separate D U P) (asserts : Bool) (x : List K) :
    ∃ T v, jacS asserts D U = .ok T ∧ (jacV asserts D U x .new).2 = .ok v ∧
      ∀ i < D.m, ∀ j < D.nS + D.nD,
        denote T v i j = if j < D.nS then P.J x ((D.eqIdx ++ D.ineqIdx).getD i 0) j else P.J x i j := by
  obtain ⟨T, -, hS, hV⟩ := jac_separate h
  obtain ⟨v, -, hv, hd⟩ := hV x
  refine ⟨T, v, hS asserts, by rw [hv asserts .new rfl rfl], fun i hi j hj => ?_⟩
  rw [hd i j, if_pos ⟨hi, hj⟩]
  rfl

/-! ### Concrete users -/

/-- Two constraints, a sparse and a dense variable; `e` says which constraint is an equality. -/
def demoD (e : ℕ → Bool) (a b : ℕ) : Dims := ⟨2, 1, 1, a, b, 1, e⟩

def demoP : Prob ℤ :=
  ⟨fun x i => i + x.sum, fun x i j => (10 * i + j + 1) * x.sum, fun x f _ i j => if i = j then f * x.sum else 0⟩

/-- Separate calls. -/
def demoU : User ℤ where
  consSome idx x := some (idx.map (demoP.g x))
  consAll _ := none
  jacSomeS idx := some ((List.range idx.length).map fun r => (r, 0))
  jacSomeV idx x := some (idx.map fun i => demoP.J x i 0, idx.map fun i => demoP.J x i 1)
  jacAllS := none
  jacAllV _ := none
  hessS := some [(0, 0)]
  hessV x f lam := some ([demoP.H x f lam 0 0], [demoP.H x f lam 1 1])

/-- One call for all. -/
def demoO : User ℤ where
  consSome _ _ := none
  consAll x := some ((List.range 2).map (demoP.g x))
  jacSomeS _ := none
  jacSomeV _ _ := none
  jacAllS := some [(0, 0), (1, 0)]
  jacAllV x := some ([demoP.J x 0 0, demoP.J x 1 0], [demoP.J x 0 1, demoP.J x 1 1])
  hessS := some [(0, 0)]
  hessV x f lam := some ([demoP.H x f lam 0 0], [demoP.H x f lam 1 1])

theorem demo_hess (e : ℕ → Bool) (a b : ℕ) (U : User ℤ) (h1 : U.hessS = some [(0, 0)])
    (h2 : ∀ x f lam, U.hessV x f lam = some ([demoP.H x f lam 0 0], [demoP.H x f lam 1 1])) :
    HessPart (demoD e a b) demoP U := by
  refine ⟨_, h1, rfl, by simp [demoD], fun x f lam => ⟨?_, _, h2 x f lam, rfl, ?_⟩⟩
  · intro i j hi hj
    have : i ≠ j := by simp only [demoD] at hi hj; omega
    simp [demoP, this]
  · intro i j hij hj
    obtain rfl : j = 0 := by simp only [demoD] at hj; omega
    obtain rfl : i = 0 := by omega
    simp [denote]

/-- The equality first. -/
theorem demo_separate : Separate (demoD (· == 0) 1 1) demoU demoP where
  consEq _ := rfl
  consIneq _ := rfl
  jacEq := by
    refine ⟨_, rfl, rfl, by decide, fun x => ⟨_, rfl, rfl, ?_⟩⟩
    intro r hr c hc
    obtain rfl : c = 0 := by simp only [demoD] at hc; omega
    obtain rfl : r = 0 := by change r < 1 at hr; omega
    simp [denote, demoD, Dims.eqIdx, List.range_succ]
  jacIneq := by
    refine ⟨_, rfl, rfl, by decide, fun x => ⟨_, rfl, rfl, ?_⟩⟩
    intro r hr c hc
    obtain rfl : c = 0 := by simp only [demoD] at hc; omega
    obtain rfl : r = 0 := by change r < 1 at hr; omega
    simp [denote, demoD, Dims.ineqIdx, List.range_succ]
  hess := demo_hess _ _ _ _ rfl fun _ _ _ => rfl

/-- The equality last. -/
theorem demo_separate_last : Separate (demoD (· == 1) 1 1) demoU demoP where
  consEq _ := rfl
  consIneq _ := rfl
  jacEq := by
    refine ⟨_, rfl, rfl, by decide, fun x => ⟨_, rfl, rfl, ?_⟩⟩
    intro r hr c hc
    obtain rfl : c = 0 := by simp only [demoD] at hc; omega
    obtain rfl : r = 0 := by change r < 1 at hr; omega
    simp [denote, demoD, Dims.eqIdx, List.range_succ]
  jacIneq := by
    refine ⟨_, rfl, rfl, by decide, fun x => ⟨_, rfl, rfl, ?_⟩⟩
    intro r hr c hc
    obtain rfl : c = 0 := by simp only [demoD] at hc; omega
    obtain rfl : r = 0 := by change r < 1 at hr; omega
    simp [denote, demoD, Dims.ineqIdx, List.range_succ]
  hess := demo_hess _ _ _ _ rfl fun _ _ _ => rfl

theorem demo_one : OneCall (demoD (· == 1) 1 1) demoO demoP where
  consSome _ _ := rfl
  consAll _ := rfl
  jacSomeS _ := rfl
  jacSomeV _ _ := rfl
  jacAll := by
    refine ⟨_, rfl, rfl, by decide, fun x => ⟨_, rfl, rfl, ?_⟩⟩
    intro r hr c hc
    obtain rfl : c = 0 := by simp only [demoD] at hc; omega
    have : r = 0 ∨ r = 1 := by change r < 2 at hr; omega
    rcases this with rfl | rfl <;> simp [denote, demoD]
  hess := demo_hess _ _ _ _ rfl fun _ _ _ => rfl

example : ∃ T TH : List (ℕ × ℕ), T.length = 4 ∧ TH.length = 2 ∧ ∀ asserts (ops : List (Op ℤ)),
    List.Forall₂ (Right (demoD (· == 1) 1 1) demoP T TH) ops (runOps asserts (demoD (· == 1) 1 1) demoO .new ops) :=
  C67_one_call demo_one

example : ∃ T TH : List (ℕ × ℕ), T.length = 4 ∧ TH.length = 2 ∧ ∀ asserts (ops : List (Op ℤ)),
    List.Forall₂ (Right (demoD (· == 0) 1 1) demoP T TH) ops (runOps asserts (demoD (· == 0) 1 1) demoU .new ops) :=
  C67_separate_partial demo_separate (by
    intro i j h1 h2 h3
    have : j < 2 := h2
    simp only [demoD, beq_iff_eq] at h3 ⊢
    omega)

/-- **C67 (order), refuted**: if an inequality comes first, Ipopt gets a Jacobian that is not that of the problem, at
every point but one: with the separate calls there is no structure with which all answers are right. -/
theorem C67_order_false : ∃ (D : Dims) (U : User ℤ) (P : Prob ℤ), Separate D U P ∧ ∀ asserts T TH,
    ¬ List.Forall₂ (Right D P T TH) [.jacS, .jacV [1]] (runOps asserts D U .new [.jacS, .jacV [1]]) := by
  refine ⟨demoD (· == 1) 1 1, demoU, demoP, demo_separate_last, fun asserts T TH h => ?_⟩
  have e : runOps asserts (demoD (· == 1) 1 1) demoU .new [.jacS, .jacV [1]] =
      [.str [(0, 0), (1, 1), (1, 0), (0, 1)], .vals [11, 12, 1, 2]] := by
    cases asserts <;> rfl
  rw [e] at h
  cases h with
  | cons h1 h =>
    cases h with
    | cons h2 _ =>
      have h1 : [(0, 0), (1, 1), (1, 0), (0, 1)] = T := h1
      subst h1
      exact absurd (h2.2 0 0) (by decide)

/-! ### Callbacks that fail -/

/-- A user whose call for the equalities fails and for the inequalities succeeds (say, at a point where an equality
cannot be evaluated). -/
def demoF : User ℤ :=
  { demoU with
    consSome := fun idx x => if idx = [0] then none else some (idx.map (demoP.g x))
    jacSomeV := fun idx x => if idx = [0] then none else demoU.jacSomeV idx x }

/-- **C67 (failures are reported), refuted**: if the call for the equalities fails and that for the inequalities
does not, `eval_g` reports success; the entries of the equalities are what Ipopt had in its array. The same for the
Jacobian, whose values are then those of the inequalities only, at the places of the equalities (with assertions the
program is aborted). -/
theorem C67_failure_false : ∃ (D : Dims) (U : User ℤ), U.consSome D.eqIdx [1] = none ∧ U.consAll [1] = none ∧
    U.jacSomeV D.eqIdx [1] = none ∧ U.jacAllV [1] = none ∧
    (∀ old, (evalG D U [1] old).1 = true ∧ (evalG D U [1] old).2 0 = old 0) ∧
    (jacV true D U [1] .new).2 = .abort ∧
    ∃ v, (jacV false D U [1] .new).2 = .ok v ∧ v.length < D.neleJac := by
  refine ⟨demoD (· == 0) 1 1, demoF, rfl, rfl, rfl, rfl, fun old => ⟨rfl, rfl⟩, rfl, _, rfl, by decide⟩

/-- **C67 (failures), partial**: a failure of the call for the inequalities is reported after a successful call for
the equalities; if both fail, that of the call for all. -/
theorem C67_failure_partial (asserts : Bool) (D : Dims) (U : User K) (x : List K) (old : ℕ → K) (s : St) :
    (U.consSome D.ineqIdx x = none → U.consAll x = none → (evalG D U x old).1 = false) ∧
    (U.consSome D.ineqIdx x = none → U.consSome D.eqIdx x ≠ none → (evalG D U x old).1 = false) ∧
    (U.jacSomeV D.ineqIdx x = none → U.jacAllV x = none → ∀ v, (jacV asserts D U x s).2 ≠ .ok v) ∧
    (U.hessV x 0 [] = none → hessV asserts D U x 0 [] = .fail) := by
  refine ⟨fun h1 h2 => ?_, fun h1 h2 => ?_, fun h1 h2 v => ?_, fun h => by simp [hessV, h]⟩
  · unfold evalG
    rw [h1, h2]
    simp only []
    split <;> rfl
  · obtain ⟨v, hv⟩ := Option.ne_none_iff_exists'.1 h2
    simp [evalG, h1, hv]
  · have hall : ∀ s, (jacVall asserts D U x s).2 ≠ .ok v := by
      intro s
      unfold jacVall
      rw [h2]
      split <;> simp
    unfold jacV
    rw [h1]
    split
    · exact hall _
    · split
      · simp
      · simp only []
        split
        · split
          · simp
          · exact hall _
        · split
          · simp
          · exact hall _

/-! ### Dense problems -/

/-- A dense user of a problem. -/
structure DSeparate (n : ℕ) (U : DUser K) (P : Prob K) : Prop where
  cons : ∀ idx x, U.consSome idx x = some (idx.map (P.g x))
  jac : ∀ idx x, U.jacSome idx x = some (idx.flatMap fun i => (List.range n).map fun j => P.J x i j)

theorem foldlM_append (f : ℕ → List K) (l : List ℕ) (a : List K) :
    l.foldlM (fun a i => (some (f i)).map (a ++ ·)) a = some (a ++ l.flatMap f) := by
  induction l generalizing a with
  | nil => simp
  | cons i l ih => simpa [List.foldlM_cons] using ih (a ++ f i)

/-- **C67 (dense)**: for users with separate calls Ipopt gets constraints and Jacobian of the problem, in any order
of the constraints. -/
theorem C67_dense (n m : ℕ) {U : DUser K} {P : Prob K} (h : DSeparate n U P) (x : List K) :
    denseG m U x = some ((List.range m).map (P.g x)) ∧
    ∃ v, denseJacV m U x = some v ∧ v.length = (denseJacS n m).length ∧
      ∀ i j, denote (denseJacS n m) v i j = if i < m ∧ j < n then P.J x i j else 0 := by
  refine ⟨h.cons _ x, (List.range m).flatMap fun i => (List.range n).map fun j => P.J x i j, ?_, ?_, ?_⟩
  · unfold denseJacV
    have := foldlM_append (fun i => (List.range n).map fun j => P.J x i j) (List.range m) []
    simpa [h.jac] using this
  · simp [denseJacS, List.length_flatMap]
  · intro i j
    have := denote_dense ⟨0, 0, n, 0, 0, 0, fun _ => true⟩ (List.range m) List.nodup_range (P.J x) i j
    simpa [denseS, denseJacS] using this

example : denseJacV 2 ⟨fun idx x => some (idx.map (demoP.g x)), fun _ => none,
    fun idx x => some (idx.flatMap fun i => (List.range 2).map fun j => demoP.J x i j), fun _ => none⟩ [1] =
    some [1, 2, 11, 12] := by decide

/-- **C67 (dense, one call), refuted**: a user with one call for all constraints, which HiOp itself accepts, cannot
be solved with the adapter: every evaluation of the constraints fails, and of the Jacobian if there is a
constraint. -/
theorem C67_dense_one_call_false (m : ℕ) (hm : 0 < m) (U : DUser K) (h : ∀ idx x, U.consSome idx x = none)
    (hj : ∀ idx x, U.jacSome idx x = none) (x : List K) : denseG m U x = none ∧ denseJacV m U x = none := by
  refine ⟨h _ _, ?_⟩
  unfold denseJacV
  obtain ⟨k, rfl⟩ : ∃ k, m = k + 1 := ⟨m - 1, by omega⟩
  rw [List.range_succ_eq_map, List.foldlM_cons, hj]
  rfl

end Hiop.Ipopt
