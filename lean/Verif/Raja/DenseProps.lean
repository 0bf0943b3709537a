import Verif.Raja.DenseModel
import Verif.Raja.VecProps
import Verif.DenseMat.Props

/-!
# C64: parallel dense matrices give the host result on every schedule

For every operation of `hiopMatrixDenseRaja` the set of outcomes over all interleavings is a single
matrix (or vector), and it holds the same values as the host matrix of C58. `Is A m n f` (C58): `A` is a
properly allocated matrix object holding the `m × n` matrix `f`.
-/

set_option linter.unusedSectionVars false

namespace Hiop.Raja.Dense

open Hiop.DenseMat Finset Hiop.Raja Function

variable {K : Type} [Field K] [LinearOrder K] [IsStrictOrderedRing K]
variable {A B W X : DMat K} {m n k : ℕ} {f g w x : ℕ → ℕ → K}

/-! ## Loops -/

/-- Updates of different elements, some iterations possibly doing nothing. -/
theorem forallR_updIf {N : ℕ} (P : ℕ → Prop) [DecidablePred P] (loc : ℕ → ℕ) (F : ℕ → K → K)
    (a : ℕ → K) {body : ℕ → Prog ℕ fun _ => K}
    (hb : ∀ i, i < N → body i = if P i then .rd (loc i) fun v => .wr (loc i) (F i v) .ret else .ret)
    (hinj : ∀ i j, i < N → j < N → P i → P j → loc i = loc j → i = j) :
    ∃ M, forallR N body a = Out.one M ∧ (∀ i, i < N → P i → M (loc i) = F i (a (loc i))) ∧
      ∀ l, (∀ i, i < N → P i → loc i ≠ l) → M l = a l := by
  classical
  let M : ℕ → K := fun l => if h : ∃ i, i < N ∧ P i ∧ loc i = l then F h.choose (a l) else a l
  have h1 : ∀ i, i < N → P i → M (loc i) = F i (a (loc i)) := by
    intro i hi hp
    have he : ∃ j, j < N ∧ P j ∧ loc j = loc i := ⟨i, hi, hp, rfl⟩
    simp only [M, dif_pos he]
    rw [hinj _ _ he.choose_spec.1 hi he.choose_spec.2.1 hp he.choose_spec.2.2]
  have h2 : ∀ l, (∀ i, i < N → P i → loc i ≠ l) → M l = a l := by
    intro l hl
    simp only [M]
    rw [dif_neg]
    rintro ⟨i, hi, hp, e⟩
    exact hl i hi hp e
  refine ⟨M, ?_, h1, h2⟩
  refine forallR_upd M (fun i => if P i then [(loc i, F i)] else []) (fun i hi => ?_) ?_ ?_ ?_ ?_
  · rw [hb i hi]
    by_cases hp : P i
    · rw [if_pos hp, if_pos hp]; rfl
    · rw [if_neg hp, if_neg hp]; rfl
  · intro i _
    by_cases hp : P i <;> simp [hp]
  · intro i j hi hj hij u hu v hv
    by_cases hp : P i
    · by_cases hq : P j
      · simp only [if_pos hp, if_pos hq, List.mem_singleton] at hu hv
        subst hu hv
        exact fun e => hij (hinj i j hi hj hp hq e)
      · simp [hq] at hv
    · simp [hp] at hu
  · intro i hi u hu
    by_cases hp : P i
    · simp only [if_pos hp, List.mem_singleton] at hu
      subst hu
      exact h1 i hi hp
    · simp [hp] at hu
  · intro l hl
    refine h2 l fun i hi hp => ?_
    exact hl i hi (loc i, F i) (by simp [hp])

/-- Updates of different elements of an array. -/
theorem forallR_upd1 {N size : ℕ} (loc : ℕ → ℕ) (F : ℕ → K → K) (a : ℕ → K)
    {body : ℕ → Prog ℕ fun _ => K}
    (hb : ∀ i, i < N → body i = upd1 size (loc i) (F i)) (hs : ∀ i, i < N → loc i < size)
    (hinj : ∀ i j, i < N → j < N → loc i = loc j → i = j) :
    ∃ M, forallR N body a = Out.one M ∧ (∀ i, i < N → M (loc i) = F i (a (loc i))) ∧
      ∀ l, (∀ i, i < N → loc i ≠ l) → M l = a l := by
  obtain ⟨M, h1, h2, h3⟩ := forallR_updIf (N := N) (fun _ => True) loc F a (body := body)
    (fun i hi => by rw [hb i hi, upd1, assertP, if_pos (hs i hi), if_pos trivial])
    (fun i j hi hj _ _ e => hinj i j hi hj e)
  exact ⟨M, h1, fun i hi => h2 i hi trivial, fun l hl => h3 l fun i hi _ => hl i hi⟩

theorem pair_lt {nc nr c r : ℕ} (hc : c < nc) (hr : r < nr) : c * nr + r < nc * nr :=
  pos_lt_size hc hr

theorem pair_of {nc nr q : ℕ} (h : q < nc * nr) : q / nr < nc ∧ q % nr < nr := by
  have : 0 < nr := by
    rcases Nat.eq_zero_or_pos nr with h0 | h0
    · subst h0; simp at h
    · exact h0
  exact ⟨Nat.div_lt_of_lt_mul (by rwa [Nat.mul_comm] at h), Nat.mod_lt _ this⟩

theorem pair_ext {nr q q' : ℕ} (h1 : q / nr = q' / nr) (h2 : q % nr = q' % nr) : q = q' := by
  rw [← Nat.div_add_mod q nr, ← Nat.div_add_mod q' nr, h1, h2]

/-- A loop over pairs that updates different elements, some pairs possibly doing nothing. -/
theorem kernel2_updIf {nc nr : ℕ} (P : ℕ → ℕ → Prop) [∀ c r, Decidable (P c r)]
    (loc : ℕ → ℕ → ℕ) (F : ℕ → ℕ → K → K) (a : ℕ → K) {body : ℕ → ℕ → Prog ℕ fun _ => K}
    (hb : ∀ c r, c < nc → r < nr → body c r
      = if P c r then .rd (loc c r) fun v => .wr (loc c r) (F c r v) .ret else .ret)
    (hinj : ∀ c r c' r', c < nc → r < nr → c' < nc → r' < nr → P c r → P c' r' →
      loc c r = loc c' r' → c = c' ∧ r = r') :
    ∃ M, kernel2 nc nr body a = Out.one M ∧
      (∀ c r, c < nc → r < nr → P c r → M (loc c r) = F c r (a (loc c r))) ∧
      ∀ l, (∀ c r, c < nc → r < nr → P c r → loc c r ≠ l) → M l = a l := by
  obtain ⟨M, h1, h2, h3⟩ := forallR_updIf (N := nc * nr) (fun q => P (q / nr) (q % nr))
    (fun q => loc (q / nr) (q % nr)) (fun q => F (q / nr) (q % nr)) a
    (body := fun q => body (q / nr) (q % nr))
    (fun q hq => hb _ _ (pair_of hq).1 (pair_of hq).2)
    (fun q q' hq hq' p p' e => by
      obtain ⟨e1, e2⟩ := hinj _ _ _ _ (pair_of hq).1 (pair_of hq).2 (pair_of hq').1 (pair_of hq').2 p p' e
      exact pair_ext e1 e2)
  refine ⟨M, h1, fun c r hc hr p => ?_, fun l hl => h3 l fun q hq p =>
    hl _ _ (pair_of hq).1 (pair_of hq).2 p⟩
  have := h2 (c * nr + r) (pair_lt hc hr)
  simp only [] at this
  rw [pos_div hr, pos_mod hr] at this
  exact this p

theorem kernel2_upd1 {nc nr size : ℕ} (loc : ℕ → ℕ → ℕ) (F : ℕ → ℕ → K → K) (a : ℕ → K)
    {body : ℕ → ℕ → Prog ℕ fun _ => K}
    (hb : ∀ c r, c < nc → r < nr → body c r = upd1 size (loc c r) (F c r))
    (hs : ∀ c r, c < nc → r < nr → loc c r < size)
    (hinj : ∀ c r c' r', c < nc → r < nr → c' < nc → r' < nr → loc c r = loc c' r' → c = c' ∧ r = r') :
    ∃ M, kernel2 nc nr body a = Out.one M ∧
      (∀ c r, c < nc → r < nr → M (loc c r) = F c r (a (loc c r))) ∧
      ∀ l, (∀ c r, c < nc → r < nr → loc c r ≠ l) → M l = a l := by
  obtain ⟨M, h1, h2, h3⟩ := kernel2_updIf (nc := nc) (nr := nr) (fun _ _ => True) loc F a (body := body)
    (fun c r hc hr => by rw [hb c r hc hr, upd1, assertP, if_pos (hs c r hc hr), if_pos trivial])
    (fun c r c' r' hc hr hc' hr' _ _ e => hinj c r c' r' hc hr hc' hr' e)
  exact ⟨M, h1, fun c r hc hr => h2 c r hc hr trivial, fun l hl => h3 l fun c r hc hr _ => hl c r hc hr⟩

theorem loads_pos {a : Arr K} {so st cnt : ℕ} (h : ∀ q < cnt, so + st * q < a.size)
    (p : Prog ℕ fun _ => K) : loads a so st cnt p = p := if_pos h

theorem loads_row (hA : Is A m n f) {i : ℕ} (hi : i < m) (p : Prog ℕ fun _ => K) :
    loads A.arr (i * n) 1 n p = p :=
  loads_pos (fun q hq => by
    rw [hA.size, Nat.one_mul]; exact pos_lt_cap hi hq hA.cap_le) p

theorem loads_col (hA : Is A m n f) {j : ℕ} (hj : j < n) (p : Prog ℕ fun _ => K) :
    loads A.arr j n m p = p :=
  loads_pos (fun q hq => by
    rw [hA.size, Nat.add_comm, Nat.mul_comm]; exact pos_lt_cap hq hj hA.cap_le) p

theorem loads_one {a : Arr K} {so : ℕ} (h : so < a.size) (p : Prog ℕ fun _ => K) :
    loads a so 0 1 p = p :=
  loads_pos (fun q _ => by simpa using h) p

theorem loads_vec {a : Arr K} {N : ℕ} (h : N ≤ a.size) (p : Prog ℕ fun _ => K) :
    loads a 0 1 N p = p :=
  loads_pos (fun q hq => by omega) p

theorem onMat_one {o : Out (ℕ → K)} {M : ℕ → K} (h : o = Out.one M) :
    onMat A o = Out.one (A.put ⟨0, M⟩) := by
  unfold onMat
  rw [h, Out.one_andThen]
  rfl

theorem onArr_one {o : Out (ℕ → K)} {y : Arr K} {M : ℕ → K} (h : o = Out.one M) :
    onArr y o = Out.one ⟨y.size, M⟩ := by
  unfold onArr
  rw [h, Out.one_andThen]

theorem inSize (hA : Is A m n f) {i j : ℕ} (hi : i < m) (hj : j < n) : i * n + j < A.arr.size := by
  rw [hA.size]; exact pos_lt_cap hi hj hA.cap_le

/-- A loop on the values of a matrix that updates different elements. -/
theorem mat_upd1 (hA : Is A m n f) {N : ℕ} {body : ℕ → Prog ℕ fun _ => K} (loc : ℕ → ℕ)
    (F : ℕ → K → K) (hb : ∀ i, i < N → body i = upd1 A.arr.size (loc i) (F i))
    (hs : ∀ i, i < N → loc i < A.arr.size)
    (hinj : ∀ i j, i < N → j < N → loc i = loc j → i = j)
    (hC : ∀ M : ℕ → K, (∀ i, i < N → M (loc i) = F i (A.data (loc i))) →
      (∀ l, (∀ i, i < N → loc i ≠ l) → M l = A.data l) → ∀ i < m, ∀ j < n, M (i * n + j) = g i j) :
    ∃ A', onMat A (forallR N body A.data) = Out.one A' ∧ A'.cap = A.cap ∧ Is A' m n g := by
  obtain ⟨M, h1, h2, h3⟩ := forallR_upd1 loc F A.data hb hs hinj
  exact ⟨_, onMat_one h1, rfl, is_put hA _ (hC M h2 h3)⟩

theorem mat_updIf2 (hA : Is A m n f) {nc nr : ℕ} {body : ℕ → ℕ → Prog ℕ fun _ => K}
    (P : ℕ → ℕ → Prop) [∀ c r, Decidable (P c r)] (loc : ℕ → ℕ → ℕ) (F : ℕ → ℕ → K → K)
    (hb : ∀ c r, c < nc → r < nr → body c r
      = if P c r then .rd (loc c r) fun v => .wr (loc c r) (F c r v) .ret else .ret)
    (hinj : ∀ c r c' r', c < nc → r < nr → c' < nc → r' < nr → P c r → P c' r' →
      loc c r = loc c' r' → c = c' ∧ r = r')
    (hC : ∀ M : ℕ → K, (∀ c r, c < nc → r < nr → P c r → M (loc c r) = F c r (A.data (loc c r))) →
      (∀ l, (∀ c r, c < nc → r < nr → P c r → loc c r ≠ l) → M l = A.data l) →
      ∀ i < m, ∀ j < n, M (i * n + j) = g i j) :
    ∃ A', onMat A (kernel2 nc nr body A.data) = Out.one A' ∧ A'.cap = A.cap ∧ Is A' m n g := by
  obtain ⟨M, h1, h2, h3⟩ := kernel2_updIf P loc F A.data hb hinj
  exact ⟨_, onMat_one h1, rfl, is_put hA _ (hC M h2 h3)⟩

theorem mat_upd2 (hA : Is A m n f) {nc nr : ℕ} {body : ℕ → ℕ → Prog ℕ fun _ => K}
    (loc : ℕ → ℕ → ℕ) (F : ℕ → ℕ → K → K)
    (hb : ∀ c r, c < nc → r < nr → body c r = upd1 A.arr.size (loc c r) (F c r))
    (hs : ∀ c r, c < nc → r < nr → loc c r < A.arr.size)
    (hinj : ∀ c r c' r', c < nc → r < nr → c' < nc → r' < nr → loc c r = loc c' r' → c = c' ∧ r = r')
    (hC : ∀ M : ℕ → K, (∀ c r, c < nc → r < nr → M (loc c r) = F c r (A.data (loc c r))) →
      (∀ l, (∀ c r, c < nc → r < nr → loc c r ≠ l) → M l = A.data l) →
      ∀ i < m, ∀ j < n, M (i * n + j) = g i j) :
    ∃ A', onMat A (kernel2 nc nr body A.data) = Out.one A' ∧ A'.cap = A.cap ∧ Is A' m n g := by
  obtain ⟨M, h1, h2, h3⟩ := kernel2_upd1 loc F A.data hb hs hinj
  exact ⟨_, onMat_one h1, rfl, is_put hA _ (hC M h2 h3)⟩

/-- A loop on a vector that updates different elements. -/
theorem arr_upd1 {y : Arr K} {N : ℕ} {body : ℕ → Prog ℕ fun _ => K} {C : Arr K → Prop} (loc : ℕ → ℕ)
    (F : ℕ → K → K) (hb : ∀ i, i < N → body i = upd1 y.size (loc i) (F i))
    (hs : ∀ i, i < N → loc i < y.size)
    (hinj : ∀ i j, i < N → j < N → loc i = loc j → i = j)
    (hC : ∀ M : ℕ → K, (∀ i, i < N → M (loc i) = F i (y.get (loc i))) →
      (∀ l, (∀ i, i < N → loc i ≠ l) → M l = y.get l) → C ⟨y.size, M⟩) :
    ∃ y', onArr y (forallR N body y.get) = Out.one y' ∧ C y' := by
  obtain ⟨M, h1, h2, h3⟩ := forallR_upd1 loc F y.get hb hs hinj
  exact ⟨_, onArr_one h1, hC M h2 h3⟩

/-! ## Products -/

/-- **C64, `timesVec`.** -/
theorem C64_timesVec (hA : Is A m n f) (beta alpha : K) (y v : Arr K) (hy : y.size = m)
    (hv : v.size = n) :
    ∃ y', timesVecR A beta y alpha v = Out.one y' ∧ y'.size = m ∧
      ∀ i < m, y'.get i = beta * y.get i + alpha * ∑ j ∈ range n, f i j * v.get j := by
  unfold timesVecR
  rw [hA.hm, hA.hn]
  refine arr_upd1 (fun i => i)
    (fun i u => beta * u + alpha * ∑ j ∈ range n, A.data (i * n + j) * v.get j)
    (fun i hi => by rw [loads_row hA hi, loads_vec hv.ge]) (fun i hi => by omega)
    (fun i j _ _ e => e) ?_
  refine fun M h2 h3 => ⟨hy, fun i hi => ?_⟩
  show M i = _
  rw [h2 i hi]
  congr 2
  exact sum_congr rfl fun j hj => by rw [← hA.get hi (mem_range.1 hj)]; rfl

/-- **C64, `transTimesVec`.** -/
theorem C64_transTimesVec (hA : Is A m n f) (beta alpha : K) (y v : Arr K) (hy : y.size = n)
    (hv : v.size = m) :
    ∃ y', transTimesVecR A beta y alpha v = Out.one y' ∧ y'.size = n ∧
      ∀ j < n, y'.get j = beta * y.get j + alpha * ∑ i ∈ range m, f i j * v.get i := by
  unfold transTimesVecR
  rw [hA.hm, hA.hn]
  refine arr_upd1 (fun i => i)
    (fun j u => beta * u + alpha * ∑ i ∈ range m, A.data (i * n + j) * v.get i)
    (fun j hj => by rw [loads_col hA hj, loads_vec hv.ge]) (fun i hi => by omega)
    (fun i j _ _ e => e) ?_
  refine fun M h2 h3 => ⟨hy, fun j hj => ?_⟩
  show M j = _
  rw [h2 j hj]
  congr 2
  exact sum_congr rfl fun i hi => by rw [← hA.get (mem_range.1 hi) hj]; rfl

theorem timesMatLocal_one (hA : Is A m n f) (hX : Is X n k x) (hW : Is W m k w) (beta alpha : K) :
    ∃ W', timesMatLocalR A beta W alpha X = Out.one W' ∧ W'.cap = W.cap ∧
      Is W' m k fun i j => beta * w i j + alpha * ∑ l ∈ range n, f i l * x l j := by
  unfold timesMatLocalR
  rw [hA.hn, hX.hn, hW.hm, hW.hn]
  refine mat_upd2 hW
    (fun col row => row * k + col)
    (fun col row u => beta * u + alpha * ∑ l ∈ range n, A.data (row * n + l) * X.data (l * k + col))
    (fun col row hc hr => by rw [loads_row hA hr, loads_col hX hc])
    (fun col row hc hr => inSize hW hr hc)
    (fun c r c' r' hc hr hc' hr' e => ((pos_inj hc hc').1 e).symm) ?_
  intro M h2 h3 i hi j hj
  show M (i * k + j) = _
  rw [h2 j i hj hi]
  congr 1
  · rw [← hW.get hi hj]; rfl
  · congr 1
    refine sum_congr rfl fun l hl => ?_
    rw [← hA.get hi (mem_range.1 hl), ← hX.get (mem_range.1 hl) hj]
    rfl

/-- **C64, `timesMat`, in the build without MPI.** Also where the host call fails (`n = 0`). -/
theorem C64_timesMat (hA : Is A m n f) (hX : Is X n k x) (hW : Is W m k w) (beta alpha : K) :
    ∃ W', timesMatR false A beta W alpha X = Out.one W' ∧ W'.cap = W.cap ∧
      Is W' m k fun i j => beta * w i j + alpha * ∑ l ∈ range n, f i l * x l j := by
  unfold timesMatR
  rw [if_neg (by simp)]
  exact timesMatLocal_one hA hX hW beta alpha

/-- **C64, `timesMat`, in the build with MPI (partial).** Like the host, `n = 0` is excluded: then `W`
is returned without the factor `beta` (`C64_timesMat_empty_refuted`). -/
theorem C64_timesMat_mpi_partial (hA : Is A m n f) (hX : Is X n k x) (hW : Is W m k w) (beta alpha : K)
    (hn : n ≠ 0) :
    ∃ W', timesMatR true A beta W alpha X = Out.one W' ∧ W'.cap = W.cap ∧
      Is W' m k fun i j => beta * w i j + alpha * ∑ l ∈ range n, f i l * x l j := by
  unfold timesMatR
  rw [if_pos rfl, hA.hm, hA.hn, hX.hm, hX.hn, hW.hm, hW.hn, Out.check_pos ⟨rfl, rfl, rfl⟩]
  by_cases h : m = 0 ∨ k = 0
  · rw [if_pos (by tauto)]
    exact ⟨W, rfl, rfl, hW.ok, hW.hm, hW.hn, fun i hi j hj => by omega⟩
  · rw [if_neg (by tauto)]
    exact timesMatLocal_one hA hX hW beta alpha

theorem C64_timesMat_empty_refuted (hA : Is A m 0 f) (hX : Is X 0 k x) (hW : Is W m k w)
    (beta alpha : K) : timesMatR true A beta W alpha X = Out.one W := by
  unfold timesMatR
  rw [if_pos rfl, hA.hm, hA.hn, hX.hm, hX.hn, hW.hm, hW.hn, Out.check_pos ⟨rfl, rfl, rfl⟩,
    if_pos (by tauto)]

/-- **C64, `transTimesMat`.** -/
theorem C64_transTimesMat (hA : Is A m n f) (hX : Is X m k x) (hW : Is W n k w) (beta alpha : K) :
    ∃ W', transTimesMatR A beta W alpha X = Out.one W' ∧ W'.cap = W.cap ∧
      Is W' n k fun i j => beta * w i j + alpha * ∑ l ∈ range m, f l i * x l j := by
  unfold transTimesMatR
  rw [hA.hm, hA.hn, hX.hm, hX.hn, hW.hm, hW.hn, Out.check_pos ⟨rfl, rfl, rfl⟩]
  by_cases hn : n = 0
  · rw [if_pos hn]
    exact ⟨W, rfl, rfl, hW.ok, hW.hm, hW.hn, fun i hi j hj => by omega⟩
  rw [if_neg hn]
  refine mat_upd2 hW
    (fun col row => row * k + col)
    (fun col row u => beta * u + alpha * ∑ l ∈ range m, A.data (l * n + row) * X.data (l * k + col))
    (fun col row hc hr => by rw [loads_col hA hr, loads_col hX hc])
    (fun col row hc hr => inSize hW hr hc)
    (fun c r c' r' hc hr hc' hr' e => ((pos_inj hc hc').1 e).symm) ?_
  intro M h2 h3 i hi j hj
  show M (i * k + j) = _
  rw [h2 j i hj hi]
  congr 1
  · rw [← hW.get hi hj]; rfl
  · congr 1
    refine sum_congr rfl fun l hl => ?_
    rw [← hA.get (mem_range.1 hl) hi, ← hX.get (mem_range.1 hl) hj]
    rfl

/-- **C64, `timesMatTrans`.** -/
theorem C64_timesMatTrans (hA : Is A m n f) (hX : Is X k n x) (hW : Is W m k w) (beta alpha : K) :
    ∃ W', timesMatTransR A beta W alpha X = Out.one W' ∧ W'.cap = W.cap ∧
      Is W' m k fun i j => beta * w i j + alpha * ∑ l ∈ range n, f i l * x j l := by
  unfold timesMatTransR
  rw [hA.hn, hX.hn, hW.hm, hW.hn]
  by_cases h : m = 0 ∨ k = 0
  · rw [if_pos h]
    exact ⟨W, rfl, rfl, hW.ok, hW.hm, hW.hn, fun i hi j hj => by omega⟩
  rw [if_neg h]
  refine mat_upd2 hW
    (fun col row => row * k + col)
    (fun col row u => beta * u + alpha * ∑ l ∈ range n, A.data (row * n + l) * X.data (col * n + l))
    (fun col row hc hr => by rw [loads_row hA hr, loads_row hX hc])
    (fun col row hc hr => inSize hW hr hc)
    (fun c r c' r' hc hr hc' hr' e => ((pos_inj hc hc').1 e).symm) ?_
  intro M h2 h3 i hi j hj
  show M (i * k + j) = _
  rw [h2 j i hj hi]
  congr 1
  · rw [← hW.get hi hj]; rfl
  · congr 1
    refine sum_congr rfl fun l hl => ?_
    rw [← hA.get hi (mem_range.1 hl), ← hX.get hj (mem_range.1 hl)]
    rfl

/-! ## Diagonals and sums -/

/-- Additions on the diagonal from `s0` on. -/
theorem diag_one (hA : Is A m n f) {cnt s0 : ℕ} (d : ℕ → K) (hm : s0 + cnt ≤ m) (hn : s0 + cnt ≤ n)
    {body : ℕ → Prog ℕ fun _ => K}
    (hb : ∀ i, i < cnt → body i = upd1 A.arr.size ((s0 + i) * n + (s0 + i)) fun v => v + d i) :
    ∃ A', onMat A (forallR cnt body A.data) = Out.one A' ∧ A'.cap = A.cap ∧
      Is A' m n fun i j => f i j + if i = j ∧ s0 ≤ i ∧ i < s0 + cnt then d (i - s0) else 0 := by
  refine mat_upd1 hA
    (fun i => (s0 + i) * n + (s0 + i)) (fun i v => v + d i) hb
    (fun i hi => inSize hA (by omega) (by omega))
    (fun i j hi hj e => by have := (pos_inj (by omega) (by omega)).1 e; omega) ?_
  intro M h2 h3 i hi j hj
  show M (i * n + j) = _
  by_cases h : i = j ∧ s0 ≤ i ∧ i < s0 + cnt
  · obtain ⟨rfl, ha, hb⟩ := h
    have e := h2 (i - s0) (by omega)
    rw [show s0 + (i - s0) = i by omega] at e
    rw [e, if_pos ⟨rfl, ha, hb⟩, ← hA.get hi hj]
    rfl
  · rw [h3, if_neg h, add_zero, ← hA.get hi hj]
    · rfl
    · intro q hq e
      have := (pos_inj (by omega) hj).1 e
      exact h ⟨by omega, by omega, by omega⟩

theorem diag_one' (hA : Is A m n f) {cnt s0 : ℕ} (d : ℕ → K) (hm : s0 + cnt ≤ m) (hn : s0 + cnt ≤ n)
    {body : ℕ → Prog ℕ fun _ => K}
    (hb : ∀ i, i < cnt → body i = upd1 A.arr.size ((s0 + i) * n + (s0 + i)) fun v => v + d i)
    (hg : ∀ i < m, ∀ j < n,
      f i j + (if i = j ∧ s0 ≤ i ∧ i < s0 + cnt then d (i - s0) else 0) = g i j) :
    ∃ A', onMat A (forallR cnt body A.data) = Out.one A' ∧ A'.cap = A.cap ∧ Is A' m n g := by
  obtain ⟨A', h1, h2, h3⟩ := diag_one hA d hm hn hb
  exact ⟨A', h1, h2, h3.ok, h3.hm, h3.hn, fun i hi j hj => by rw [h3.val i hi j hj, hg i hi j hj]⟩

/-- **C64, `addDiagonal` of a vector.** -/
theorem C64_addDiagonal (hA : Is A n n f) (alpha : K) (d : Arr K) (hd : d.size = n) :
    ∃ A', addDiagonalR A alpha d = Out.one A' ∧ A'.cap = A.cap ∧
      Is A' n n fun i j => f i j + if i = j then alpha * d.get i else 0 := by
  unfold addDiagonalR
  rw [hA.hm, hA.hn, min_self]
  refine diag_one' hA (s0 := 0) (fun i => d.get i * alpha) (by omega)
    (by omega) (fun i hi => by rw [loads_one (by omega), Nat.zero_add]) fun i hi j hj => ?_
  simp [hi, mul_comm]

/-- **C64, `addDiagonal` of a constant.** -/
theorem C64_addDiagonalConst (hA : Is A n n f) (c : K) :
    ∃ A', addDiagonalConstR A c = Out.one A' ∧ A'.cap = A.cap ∧
      Is A' n n fun i j => f i j + if i = j then c else 0 := by
  unfold addDiagonalConstR
  rw [hA.hm, hA.hn, min_self]
  refine diag_one' hA (s0 := 0) (fun _ => c) (by omega)
    (by omega) (fun i hi => by rw [Nat.zero_add]) fun i hi j hj => ?_
  simp [hi]

/-- **C64, `addSubDiagonal` of a vector.** -/
theorem C64_addSubDiagonal (hA : Is A m n f) (alpha : K) (start : ℕ) (d : Arr K)
    (hm : start + d.size ≤ m) (hn : start + d.size ≤ n) :
    ∃ A', addSubDiagonalR A alpha start d = Out.one A' ∧ A'.cap = A.cap ∧
      Is A' m n fun i j => f i j +
        if i = j ∧ start ≤ i ∧ i < start + d.size then alpha * d.get (i - start) else 0 := by
  unfold addSubDiagonalR
  rw [hA.hn]
  refine diag_one' hA (s0 := start) (fun i => d.get i * alpha) hm hn
    (fun i hi => by rw [loads_one hi]) fun i hi j hj => ?_
  rw [mul_comm]

/-- **C64, `addSubDiagonal` of a part of a vector (partial).** As for the host, the part must lie in the
vector, which is not asserted (`C64_addSubDiagonalFrom_refuted`). -/
theorem C64_addSubDiagonalFrom_partial (hA : Is A n n f) (start : ℕ) (alpha : K) (d : Arr K)
    (src : ℕ) (num : Option ℕ) (hs : start < n) (hd : src + num.getD (d.size - src) ≤ d.size) :
    ∃ A', addSubDiagonalFromR A start alpha d src num = Out.one A' ∧ A'.cap = A.cap ∧
      Is A' n n fun i j => f i j +
        if i = j ∧ start ≤ i ∧ i < start + num.getD (d.size - src) then
          alpha * d.get (src + (i - start)) else 0 := by
  unfold addSubDiagonalFromR
  simp only
  rw [Out.check_pos ⟨le_trans (Nat.le_add_left _ _) hd, by rw [hA.hn, hA.hm], by rw [hA.hm]; exact hs⟩,
    hA.hm, hA.hn]
  refine diag_one' hA (s0 := start)
    (fun i => d.get (i + src) * alpha) (by omega) (by omega)
    (fun i hi => by rw [loads_one (by omega), Nat.add_comm i start]) fun i hi j hj => ?_
  congr 1
  by_cases h : i = j ∧ start ≤ i ∧ i < start + num.getD (d.size - src)
  · rw [if_pos h, if_pos ⟨h.1, h.2.1, by omega⟩, mul_comm, Nat.add_comm]
  · rw [if_neg h, if_neg fun h' => h ⟨h'.1, h'.2.1, by omega⟩]

theorem C64_addSubDiagonalFrom_refuted (hA : Is A n n f) (start : ℕ) (alpha : K) (d : Arr K)
    (src num : ℕ) (hnum : num ≤ d.size) (hpos : 0 < num) (hout : d.size < src + num)
    (hfit : start + num ≤ n) (hs : start < n) :
    none ∈ addSubDiagonalFromR A start alpha d src (some num) := by
  unfold addSubDiagonalFromR
  simp only [Option.getD_some]
  rw [Out.check_pos ⟨hnum, by rw [hA.hn, hA.hm], by rw [hA.hm]; exact hs⟩, hA.hm]
  refine (Out.mem_andThen _ _ _).2 (Or.inl ⟨rfl, forallR_abort (i := num - 1) (by omega) ?_⟩)
  unfold loads assertP
  rw [if_neg]
  intro h
  have := h 0 (by omega)
  omega

/-- **C64, `addSubDiagonal` of a constant.** -/
theorem C64_addSubDiagonalConst (hA : Is A n n f) (start num : ℕ) (c : K) (hs : start + num ≤ n) :
    ∃ A', addSubDiagonalConstR A start num c = Out.one A' ∧ A'.cap = A.cap ∧
      Is A' n n fun i j => f i j + if i = j ∧ start ≤ i ∧ i < start + num then c else 0 := by
  unfold addSubDiagonalConstR
  rw [Out.check_pos ⟨by rw [hA.hn]; exact hs, by rw [hA.hn, hA.hm]⟩, hA.hn]
  exact diag_one hA (cnt := num) (s0 := start) (fun _ => c) hs hs
    (fun i hi => by rw [Nat.add_comm i start])

/-- A position of the array is a pair. -/
theorem pos_pair {q : ℕ} (h : q < n * m) : q / n < m ∧ q % n < n ∧ q = q / n * n + q % n := by
  have := pair_of (nc := m) (nr := n) (q := q) (by rwa [Nat.mul_comm] at h)
  exact ⟨this.1, this.2, by rw [Nat.mul_comm]; exact (Nat.div_add_mod q n).symm⟩

/-- **C64, `addMatrix`.** -/
theorem C64_addMatrix (hA : Is A m n f) (hX : Is X m n x) (alpha : K) :
    ∃ A', addMatrixR A alpha X = Out.one A' ∧ A'.cap = A.cap ∧
      Is A' m n fun i j => f i j + alpha * x i j := by
  unfold addMatrixR
  rw [hA.hm, hA.hn]
  have hs : ∀ {Y : DMat K} {y : ℕ → ℕ → K}, Is Y m n y → ∀ q, q < n * m → q < Y.arr.size := by
    intro Y y hY q hq
    have := hY.mn_le
    rw [Nat.mul_comm] at hq
    omega
  refine mat_upd1 hA (fun q => q)
    (fun q v => v + X.data q * alpha)
    (fun q hq => by rw [loads_one (hs hX q hq)]) (fun q hq => hs hA q hq) (fun _ _ _ _ e => e) ?_
  intro M h2 h3 i hi j hj
  show M (i * n + j) = _
  rw [h2 _ (by rw [Nat.mul_comm n m]; exact pos_lt_size hi hj), ← hA.get hi hj, ← hX.get hi hj,
    mul_comm alpha]
  rfl

/-- **C64, `setToConstant`.** -/
theorem C64_setToConstant (hA : Is A m n f) (c : K) :
    ∃ A', setToConstantR A c = Out.one A' ∧ A'.cap = A.cap ∧ Is A' m n fun _ _ => c := by
  unfold setToConstantR
  rw [hA.hm, hA.hn]
  have hs : ∀ q, q < n * m → q < A.arr.size := by
    intro q hq
    have := hA.mn_le
    rw [Nat.mul_comm] at hq
    omega
  obtain ⟨M, h1, h2, h3⟩ := forallR_scatter (n := A.arr.size) (n1 := n * m) (fun q => q) (fun _ => c)
    A.data (fun _ _ _ _ e => e) hs
  refine ⟨_, onMat_one h1, rfl, is_put hA _ fun i hi j hj => ?_⟩
  exact h2 _ (by rw [Nat.mul_comm n m]; exact pos_lt_size hi hj)

/-- **C64, `addToSymDenseMatrixUpperTriangle`.** -/
theorem C64_addTo (hA : Is A m n f) (hW : Is W k k w) (r0 c0 : ℕ) (alpha : K)
    (hr : m + r0 ≤ k) (hc : n + c0 ≤ k) (hup : r0 + m ≤ c0) :
    ∃ W', addToR A r0 c0 alpha W = Out.one W' ∧ W'.cap = W.cap ∧
      Is W' k k fun i j => w i j +
        if r0 ≤ i ∧ i < r0 + m ∧ c0 ≤ j ∧ j < c0 + n then alpha * f (i - r0) (j - c0) else 0 := by
  unfold addToR
  rw [hA.hm, hA.hn, hW.hm, hW.hn, Out.check_pos ⟨hr, hc, rfl⟩, Out.check_pos hup]
  refine mat_upd2 hW
    (fun jc ir => (ir + r0) * k + (jc + c0)) (fun jc ir v => v + alpha * A.data (ir * n + jc))
    (fun jc ir hj hi => by rw [loads_one (inSize hA hi hj)])
    (fun jc ir hj hi => inSize hW (by omega) (by omega))
    (fun c r c' r' hc hr hc' hr' e => by
      have := (pos_inj (by omega) (by omega)).1 e; omega) ?_
  intro M h2 h3 i hi j hj
  show M (i * k + j) = _
  by_cases h : r0 ≤ i ∧ i < r0 + m ∧ c0 ≤ j ∧ j < c0 + n
  · have e := h2 (j - c0) (i - r0) (by omega) (by omega)
    rw [show i - r0 + r0 = i by omega, show j - c0 + c0 = j by omega] at e
    rw [e, if_pos h, ← hW.get hi hj, ← hA.get (i := i - r0) (j := j - c0) (by omega) (by omega)]
    rfl
  · rw [h3, if_neg h, add_zero, ← hW.get hi hj]
    · rfl
    · intro c r hc hr e
      have := (pos_inj (by omega) hj).1 e
      exact h (by omega)

/-- **C64, `transAddToSymDenseMatrixUpperTriangle`.** -/
theorem C64_transAddTo (hA : Is A m n f) (hW : Is W k k w) (r0 c0 : ℕ) (alpha : K)
    (hr : n + r0 ≤ k) (hc : m + c0 ≤ k) (hup : n + r0 ≤ c0 + 1) :
    ∃ W', transAddToR A r0 c0 alpha W = Out.one W' ∧ W'.cap = W.cap ∧
      Is W' k k fun i j => w i j +
        if r0 ≤ i ∧ i < r0 + n ∧ c0 ≤ j ∧ j < c0 + m then alpha * f (j - c0) (i - r0) else 0 := by
  unfold transAddToR
  rw [hA.hm, hA.hn, hW.hm, hW.hn, Out.check_pos ⟨hr, hc, rfl⟩]
  refine mat_upd2 hW
    (fun jc ir => (jc + r0) * k + (ir + c0)) (fun jc ir v => v + alpha * A.data (ir * n + jc))
    (fun jc ir hj hi => by
      rw [assertP, if_pos (by omega), loads_one (inSize hA hi hj)])
    (fun jc ir hj hi => inSize hW (by omega) (by omega))
    (fun c r c' r' hc hr hc' hr' e => by
      have := (pos_inj (by omega) (by omega)).1 e; omega) ?_
  intro M h2 h3 i hi j hj
  show M (i * k + j) = _
  by_cases h : r0 ≤ i ∧ i < r0 + n ∧ c0 ≤ j ∧ j < c0 + m
  · have e := h2 (i - r0) (j - c0) (by omega) (by omega)
    rw [show i - r0 + r0 = i by omega, show j - c0 + c0 = j by omega] at e
    rw [e, if_pos h, ← hW.get hi hj, ← hA.get (i := j - c0) (j := i - r0) (by omega) (by omega)]
    rfl
  · rw [h3, if_neg h, add_zero, ← hW.get hi hj]
    · rfl
    · intro c r hc hr e
      have := (pos_inj (by omega) hj).1 e
      exact h (by omega)

/-- **C64, `addUpperTriangleToSymDenseMatrixUpperTriangle`.** -/
theorem C64_addUpperTo (hA : Is A n n f) (hW : Is W k k w) (d0 : ℕ) (alpha : K) (hd : d0 + n ≤ k) :
    ∃ W', addUpperToR A d0 alpha W = Out.one W' ∧ W'.cap = W.cap ∧
      Is W' k k fun i j => w i j +
        if d0 ≤ i ∧ i ≤ j ∧ j < d0 + n then alpha * f (i - d0) (j - d0) else 0 := by
  unfold addUpperToR
  rw [hA.hm, hA.hn, hW.hn]
  refine mat_updIf2 hW (fun j i => ¬ j < i)
    (fun j i => (i + d0) * k + (j + d0)) (fun j i v => v + alpha * A.data (i * n + j))
    (body := fun j i => if j < i then .ret
      else loads A.arr (i * n + j) 0 1
        (upd1 W.arr.size ((i + d0) * k + (j + d0)) fun v => v + alpha * A.data (i * n + j)))
    (fun j i hj hi => by
      by_cases h : j < i
      · rw [if_pos h, if_neg (not_not.2 h)]
      · rw [if_neg h, if_pos h, loads_one (inSize hA hi hj), upd1, assertP,
          if_pos (inSize hW (by omega) (by omega))])
    (fun c r c' r' hc hr hc' hr' _ _ e => by
      have := (pos_inj (by omega) (by omega)).1 e; omega) ?_
  intro M h2 h3 i hi j hj
  show M (i * k + j) = _
  by_cases h : d0 ≤ i ∧ i ≤ j ∧ j < d0 + n
  · have e := h2 (j - d0) (i - d0) (by omega) (by omega) (by omega)
    rw [show i - d0 + d0 = i by omega, show j - d0 + d0 = j by omega] at e
    rw [e, if_pos h, ← hW.get hi hj, ← hA.get (i := i - d0) (j := j - d0) (by omega) (by omega)]
    rfl
  · rw [h3, if_neg h, add_zero, ← hW.get hi hj]
    · rfl
    · intro c r hc hr hp e
      have := (pos_inj (by omega) hj).1 e
      exact h (by omega)

/-- A block that does not fit is not refused: the loop leaves the array (the host asserts). -/
theorem C64_addUpperTo_overrun (hA : Is A n n f) (hW : Is W k k w) (d0 : ℕ) (alpha : K) (hn : n ≠ 0)
    (hcap : W.cap = k) (hd : k < d0 + n) :
    none ∈ addUpperToR A d0 alpha W ∧ addUpperTo A d0 alpha W = none := by
  constructor
  · unfold addUpperToR
    rw [hA.hm, hA.hn, hW.hn]
    have hq : (n - 1) * n + (n - 1) < n * n := pos_lt_size (by omega) (by omega)
    refine (Out.mem_andThen _ _ _).2 (Or.inl ⟨rfl, forallR_abort hq ?_⟩)
    rw [pos_div (by omega), pos_mod (by omega)]
    show (if n - 1 < n - 1 then Prog.ret else _) = _
    rw [if_neg (lt_irrefl _),
      loads_one (inSize hA (by omega) (by omega)), upd1, assertP, if_neg]
    rw [hW.size, hcap, not_lt]
    have : k ≤ n - 1 + d0 := by omega
    exact le_trans (Nat.mul_le_mul_right k this) (Nat.le_add_right _ _)
  · unfold addUpperTo
    rw [if_neg]
    rw [hA.hn, hW.hn]
    omega

/-! ## Copies -/

theorem loop_congr {σ : Type*} {b b' : ℕ → σ → Option σ} {N : ℕ} (h : ∀ i < N, ∀ s, b i s = b' i s)
    (s : σ) : loop b N s = loop b' N s := by
  induction N with
  | zero => rfl
  | succ N ih =>
    rw [loop, loop, ih fun i hi => h i (Nat.lt_succ_of_lt hi)]
    exact congrArg _ (funext (h N (Nat.lt_succ_self N)))

/-- **C64, `appendRow`.** -/
theorem C64_appendRow (hA : Is A m n f) (r : Arr K) (hr : r.size = n) (hc : m < A.cap) :
    ∃ A', appendRowR A r = some A' ∧ A'.cap = A.cap ∧
      Is A' (m + 1) n fun i j => if i = m then r.get j else f i j := by
  have e : appendRowR A r = appendRow A r := by
    have h : A.row A.m = some (A.m * A.n) := by
      unfold DMat.row
      rw [hA.hm, if_pos (by omega)]
    unfold appendRowR appendRow
    rw [h]
    simp only
    cases memcpy A.arr (A.m * A.n) r 0 A.n <;> rfl
  rw [e]
  exact C58_appendRow hA r hr hc

/-- There is no room for more than `max_rows_` rows. -/
theorem C64_appendRow_full (hA : Is A m n f) (r : Arr K) (hn : n ≠ 0) (hc : m = A.cap) :
    appendRowR A r = none := by
  unfold appendRowR
  rw [memcpy, if_neg]
  · rfl
  · rw [hA.size, hA.hm, hA.hn, ← hc]
    omega

/-- **C64, `copyFrom` a matrix (partial).** The source must have room for as many rows as the
destination, whatever the number of rows in use (`C64_copyFrom_refuted`). -/
theorem C64_copyFrom_partial (hA : Is A m n f) (hB : Is B m n g) (hcap : A.cap ≤ B.cap) :
    ∃ A', copyFromR A B = some A' ∧ A'.cap = A.cap ∧ Is A' m n g := by
  unfold copyFromR
  have e1 : 0 + A.n * A.cap ≤ A.arr.size := by rw [hA.size, hA.hn, Nat.mul_comm, Nat.zero_add]
  have e2 : 0 + A.n * A.cap ≤ B.arr.size := by
    rw [hB.size, hA.hn, Nat.mul_comm, Nat.zero_add]; exact Nat.mul_le_mul_right n hcap
  rw [if_pos ⟨by rw [hA.hn, hB.hn], by rw [hA.hm, hB.hm]⟩, memcpy_some e1 e2]
  refine ⟨_, rfl, rfl, is_put hA _ fun i hi j hj => ?_⟩
  have := pos_lt_cap hi hj hA.cap_le
  rw [hA.hn, Nat.mul_comm n]
  simp only [Nat.zero_le, true_and, zero_add, this, if_true, Nat.sub_zero]
  exact hB.get hi hj

/-- A source with room for fewer rows is read beyond its end, although the sizes agree; the host copies
the rows in use. -/
theorem C64_copyFrom_refuted (hA : Is A m n f) (hB : Is B m n g) (hn : n ≠ 0) (hcap : B.cap < A.cap)
    (h0 : B.cap ≠ 0) :
    copyFromR A B = none ∧ ∃ A', copyFrom A B = some A' ∧ A'.cap = A.cap ∧ Is A' m n g := by
  refine ⟨?_, C58_copyFrom_partial hA hB fun h => absurd h h0⟩
  unfold copyFromR
  rw [if_pos ⟨by rw [hA.hn, hB.hn], by rw [hA.hm, hB.hm]⟩, memcpy, if_neg]
  · rfl
  · rintro ⟨-, h⟩
    rw [hB.size, hA.hn, Nat.zero_add, Nat.mul_comm] at h
    exact absurd (Nat.le_of_mul_le_mul_right h (Nat.pos_of_ne_zero hn)) (by omega)

/-- **C64, `copyFrom` an array.** -/
theorem C64_copyFromBuf (hA : Is A m n f) (b : Arr K) (hb : m * n ≤ b.size) :
    ∃ A', copyFromBufR A (some b) = some A' ∧ A'.cap = A.cap ∧
      Is A' m n fun i j => b.get (i * n + j) :=
  C58_copyFromBuf hA b hb

/-- **C64, `copy_to` an array (partial).** The array must have room for `max_rows_` rows
(`C64_copyTo_refuted`). -/
theorem C64_copyTo_partial (hA : Is A m n f) (b : Arr K) (hb : A.cap * n ≤ b.size) :
    ∃ b', copyToR A b = some b' ∧ b'.size = b.size ∧
      ∀ i < m, ∀ j < n, b'.get (i * n + j) = f i j := by
  unfold copyToR
  have e1 : 0 + A.n * A.cap ≤ A.arr.size := by rw [hA.size, hA.hn, Nat.mul_comm, Nat.zero_add]
  have e2 : 0 + A.n * A.cap ≤ b.size := by
    rw [hA.hn, Nat.mul_comm, Nat.zero_add]; exact hb
  rw [memcpy_some e2 e1]
  refine ⟨_, rfl, rfl, fun i hi j hj => ?_⟩
  have := pos_lt_cap hi hj hA.cap_le
  rw [hA.hn, Nat.mul_comm n]
  simp only [Nat.zero_le, true_and, zero_add, this, if_true, Nat.sub_zero]
  exact hA.get hi hj

/-- An array of the size of the matrix is written beyond its end when the matrix has room for more rows;
the host writes `m*n` elements. -/
theorem C64_copyTo_refuted (hA : Is A m n f) (b : Arr K) (hb : b.size = m * n) (hn : n ≠ 0)
    (hcap : m < A.cap) :
    copyToR A b = none ∧ ∃ b', copyTo A b = some b' ∧ b'.size = b.size ∧
      ∀ i < m, ∀ j < n, b'.get (i * n + j) = f i j := by
  refine ⟨?_, C58_copyTo hA b hb.ge⟩
  unfold copyToR
  rw [memcpy, if_neg]
  rintro ⟨h, -⟩
  rw [hb, hA.hn, Nat.zero_add, Nat.mul_comm] at h
  exact absurd (Nat.le_of_mul_le_mul_right h (Nat.pos_of_ne_zero hn)) (by omega)

/-- **C64, `new_copy`.** -/
theorem C64_newCopy (hA : Is A m n f) (junk : ℕ → K) :
    ∃ A', newCopyR A junk = some A' ∧ A'.cap = A.cap ∧ Is A' m n f := by
  have hc : Is (clone A junk) m n fun i j => junk (i * n + j) := by
    refine ⟨⟨hA.ok.1, ?_⟩, hA.hm, hA.hn, fun i hi j hj => ?_⟩
    · simp [clone]
    · show junk (i * A.n + j) = _
      rw [hA.hn]
  exact C64_copyFrom_partial hc hA le_rfl

/-- **C64, `copyRowsFrom` consecutive rows.** -/
theorem C64_copyRows (hA : Is A m n f) (hB : Is B k n g) (num row : ℕ) (h1 : row + num ≤ m)
    (h2 : num ≤ k) :
    ∃ A', copyRowsR A B num row = some A' ∧ A'.cap = A.cap ∧
      Is A' m n fun i j => if row ≤ i ∧ i < row + num then g (i - row) j else f i j := by
  have e : copyRowsR A B num row = copyRows A B num row := by
    unfold copyRowsR copyRows
    by_cases h0 : num = 0
    · rw [if_pos h0, if_pos h0]
    · rw [if_neg h0, if_neg h0, hA.row (by omega), hA.hn]
  rw [e]
  exact C58_copyRows hA hB num row h1 h2

/-- **C64, `copyRowsFrom` selected rows.** -/
theorem C64_copyRowsIdx (hA : Is A m n f) (hB : Is B k n g) (idx : ℕ → ℕ) (hmk : m ≤ k)
    (hidx : ∀ i < m, idx i < k) :
    ∃ A', copyRowsIdxR A B idx m = Out.one A' ∧ A'.cap = A.cap ∧ Is A' m n fun i j => g (idx i) j := by
  unfold copyRowsIdxR
  rw [hA.hm, hA.hn, hB.hm, hB.hn, Out.check_pos ⟨rfl, hmk, rfl⟩]
  have key : ∀ N ≤ m, ∃ M, (List.range N).foldl (fun o i => o.andThen fun a =>
      forallR n (fun j => loads B.arr (idx i * n + j) 0 1
        (assertP (i * n + j < A.arr.size)
          (.wr (i * n + j) (B.data (idx i * n + j)) .ret))) a) (Out.one A.data) = Out.one M ∧
      ∀ i < N, ∀ j < n, M (i * n + j) = g (idx i) j := by
    intro N
    induction N with
    | zero => exact fun _ => ⟨_, rfl, fun i hi => absurd hi (Nat.not_lt_zero i)⟩
    | succ N ih =>
      intro hN
      obtain ⟨M, h1, h2⟩ := ih (by omega)
      rw [List.range_succ, List.foldl_append, h1]
      show ∃ M', (Out.one M).andThen _ = Out.one M' ∧ _
      rw [Out.one_andThen, forallR_congr (b' := fun j => assertP (N * n + j < A.arr.size)
          (.wr (N * n + j) (B.data (idx N * n + j)) .ret))
        (fun j hj => loads_one (inSize hB (hidx N (by omega)) hj) _)]
      obtain ⟨M', b1, b2, b3⟩ := forallR_scatter (n := A.arr.size) (n1 := n) (fun j => N * n + j)
        (fun j => B.data (idx N * n + j)) M (fun i j _ _ e => by omega)
        (fun j hj => inSize hA (by omega) hj)
      refine ⟨M', b1, fun i hi j hj => ?_⟩
      by_cases e : i = N
      · subst e
        rw [b2 j hj]
        exact hB.get (hidx i (by omega)) hj
      · rw [b3 _ fun q hq e' => e ((pos_inj hq hj).1 e').1.symm]
        exact h2 i (by omega) j hj
  obtain ⟨M, h1, h2⟩ := key m le_rfl
  exact ⟨_, onMat_one h1, rfl, is_put hA _ h2⟩

/-- **C64, `copyBlockFromMatrix`.** -/
theorem C64_copyBlock (hA : Is A m n f) (i0 j0 : ℕ) {bm bn : ℕ} (hB : Is B bm bn g)
    (h1 : i0 + bm ≤ m) (h2 : j0 + bn ≤ n) :
    ∃ A', copyBlockR A i0 j0 B = some A' ∧ A'.cap = A.cap ∧
      Is A' m n fun i j => if i0 ≤ i ∧ i < i0 + bm ∧ j0 ≤ j ∧ j < j0 + bn then
        g (i - i0) (j - j0) else f i j := by
  have e : copyBlockR A i0 j0 B = copyBlock A i0 j0 B := by
    unfold copyBlockR copyBlock
    rw [loop_congr (b' := fun i a => match A.row (i + i0), B.row i with
      | some o, some s => memcpy a (o + j0) B.arr s B.n
      | _, _ => none) (fun i hi s => by
        rw [hB.hm] at hi
        simp only [hA.row (show i + i0 < m by omega), hB.row hi, hA.hn, hB.hn])]
    rfl
  rw [e]
  exact C58_copyBlock hA i0 j0 hB h1 h2

/-- **C64, `copyFromMatrixBlock`.** Also for a destination without rows. -/
theorem C64_copyFromBlock (hA : Is A m n f) {bm bn : ℕ} (hB : Is B bm bn g) (i0 j0 : ℕ)
    (h1 : m + i0 ≤ bm) (h2 : n + j0 ≤ bn) :
    ∃ A', copyFromBlockR A B i0 j0 = some A' ∧ A'.cap = A.cap ∧
      Is A' m n fun i j => g (i0 + i) (j0 + j) := by
  by_cases hm : m = 0
  · subst hm
    unfold copyFromBlockR
    rw [hA.hm, hA.hn, hB.hm, hB.hn, if_pos ⟨by omega, by omega⟩]
    by_cases hn : n = bn
    · subst hn
      have e2 : i0 * n + n * 0 ≤ B.arr.size :=
        le_trans (by simpa using Nat.mul_le_mul_right n (show i0 ≤ bm by omega)) hB.mn_le
      rw [if_pos rfl, memcpy_some (by simp) e2]
      exact ⟨_, rfl, rfl, is_put hA _ fun i hi => absurd hi (Nat.not_lt_zero i)⟩
    · rw [if_neg hn]
      exact ⟨_, rfl, rfl, is_put hA _ fun i hi => absurd hi (Nat.not_lt_zero i)⟩
  have e : copyFromBlockR A B i0 j0 = copyFromBlock A B i0 j0 := by
    unfold copyFromBlockR copyFromBlock
    rw [loop_congr (b' := fun i a => match A.row i, B.row (i + i0) with
      | some o, some s => memcpy a o B.arr (s + j0) A.n
      | _, _ => none) (fun i hi s => by
        rw [hA.hm] at hi
        simp only [hB.row (show i + i0 < bm by omega), hA.row hi, hA.hn, hB.hn]),
      hB.row (show i0 < bm by omega), hB.hn]
    rfl
  rw [e]
  exact C58_copyFromBlock hA hB i0 j0 h1 h2 hm

/-- **C64, `shiftRows`.** As the host (`C58_shiftRows_up`, `C58_shiftRows_down`,
`C58_shiftRows_other`). -/
theorem C64_shiftRows (hA : Is A m n f) (s : ℤ) : shiftRowsR A s = shiftRows A s := by
  unfold shiftRowsR shiftRows
  simp only [hA.hm, hA.hn]
  by_cases h0 : s = 0
  · rw [if_pos h0, if_pos h0]
  by_cases h1 : s.natAbs = m
  · rw [if_neg h0, if_neg h0, if_pos h1, if_pos h1]
  by_cases h2 : m ≤ 1
  · rw [if_neg h0, if_neg h0, if_neg h1, if_neg h1, if_pos h2, if_pos h2]
  by_cases h3 : m ≤ s.natAbs
  · rw [if_neg h0, if_neg h0, if_neg h1, if_neg h1, if_neg h2, if_neg h2, if_pos h3, if_pos h3]
  rw [if_neg h0, if_neg h0, if_neg h1, if_neg h1, if_neg h2, if_neg h2, if_neg h3, if_neg h3]
  by_cases h4 : s < 0
  · rw [if_pos h4, if_pos h4, loop_congr fun i hi t => ?_]
    simp only [hA.row (show i < m by omega), hA.row (show i + s.natAbs < m by omega)]
  · rw [if_neg h4, if_neg h4, loop_congr fun i hi t => ?_]
    simp only [hA.row (show m - 1 - i < m by omega), hA.row (show m - 1 - i - s.natAbs < m by omega)]

/-- **C64, `replaceRow`.** -/
theorem C64_replaceRow (hA : Is A m n f) (row : ℕ) (hr : row < m) (v : Arr K) :
    ∃ A', replaceRowR A row v = some A' ∧ A'.cap = A.cap ∧
      Is A' m n fun i j => if i = row ∧ j < v.size then v.get j else f i j := by
  have e : replaceRowR A row v = replaceRow A row v := by
    unfold replaceRowR replaceRow
    rw [hA.row hr, hA.hn]
  rw [e]
  exact C58_replaceRow hA row hr v

/-- **C64, `getRow`.** -/
theorem C64_getRow (hA : Is A m n f) (row : ℕ) (hr : row < m) (v : Arr K) (hv : v.size = n) :
    ∃ v', getRowR A row v = some v' ∧ v'.size = n ∧ ∀ j < n, v'.get j = f row j := by
  have e : getRowR A row v = getRow A row v := by
    unfold getRowR getRow
    rw [hA.row hr, hA.hn]
  rw [e]
  exact C58_getRow hA row hr v hv

/-- **C64, `set_Hess_FR` (partial).** With the same restriction as `copyFrom`. -/
theorem C64_setHessFR_partial (hA : Is A n n f) (hB : Is B n n g) (hcap : A.cap ≤ B.cap) (d : Arr K)
    (hd : d.size = n) :
    ∃ A', setHessFRR A B d = Out.one A' ∧ A'.cap = A.cap ∧
      Is A' n n fun i j => g i j + if i = j then d.get i else 0 := by
  obtain ⟨A1, h1, h2, h3⟩ := C64_copyFrom_partial hA hB hcap
  obtain ⟨A2, h4, h5, h6⟩ := C64_addDiagonal h3 1 d hd
  unfold setHessFRR
  rw [h1]
  refine ⟨A2, h4, h5.trans h2, h6.ok, h6.hm, h6.hn, fun i hi j hj => ?_⟩
  rw [h6.val i hi j hj, one_mul]

/-! ## Norms and scaling -/

theorem exists_pos_pair {Q : ℕ → Prop} : (∃ q < n * m, Q q) ↔ ∃ i < m, ∃ j < n, Q (i * n + j) := by
  constructor
  · rintro ⟨q, hq, h⟩
    obtain ⟨h1, h2, h3⟩ := pos_pair hq
    exact ⟨_, h1, _, h2, h3 ▸ h⟩
  · rintro ⟨i, hi, j, hj, h⟩
    exact ⟨_, by rw [Nat.mul_comm n m]; exact pos_lt_size hi hj, h⟩

/-- **C64, `max_abs_value`.** The reduction has one value, whatever the order and the grouping. -/
theorem C64_maxAbs (hA : Is A m n f) : ∃ v, maxAbsR A = {v} ∧ IsMaxAbs v m n f := by
  unfold maxAbsR
  rw [hA.hm, hA.hn]
  obtain ⟨r, h1, h2⟩ := reduceMax_one (n := n * m) (0 : K) fun i => some |A.data i|
  have h2' : ∀ c, r ≤ c ↔ 0 ≤ c ∧ ∀ q < n * m, |A.data q| ≤ c := fun c =>
    (h2 c).trans (and_congr_right fun _ => ⟨fun h q hq => h q hq _ rfl, fun h q hq a e => by
      rw [Option.some.injEq] at e; rw [← e]; exact h q hq⟩)
  have hval : ∀ i < m, ∀ j < n, A.data (i * n + j) = f i j := fun i hi j hj => hA.get hi hj
  refine ⟨r, h1, fun i hi j hj => ?_, ?_⟩
  · rw [← hval i hi j hj]
    exact ((h2' r).1 le_rfl).2 _ (by rw [Nat.mul_comm n m]; exact pos_lt_size hi hj)
  · by_cases h0 : m = 0 ∨ n = 0
    · refine Or.inl ⟨le_antisymm ((h2' 0).2 ⟨le_rfl, fun q hq => ?_⟩) ((h2' r).1 le_rfl).1, h0⟩
      rcases h0 with h0 | h0 <;> simp [h0] at hq
    · right
      have hne : (range (n * m)).Nonempty :=
        ⟨0, mem_range.2 (Nat.mul_pos (by omega) (by omega))⟩
      obtain ⟨q, hq, hmax⟩ := exists_max_image (range (n * m)) (fun q => |A.data q|) hne
      rw [mem_range] at hq
      have e : r = |A.data q| := le_antisymm
        ((h2' _).2 ⟨abs_nonneg _, fun p hp => hmax p (mem_range.2 hp)⟩) (((h2' r).1 le_rfl).2 q hq)
      obtain ⟨a, b, c⟩ := pos_pair hq
      exact ⟨_, a, _, b, by rw [e, ← hval _ a _ b, ← c]⟩

theorem run_fold (i : ℕ) (F : ℕ → K → K) (l : List ℕ) (a : ℕ → K) :
    run (loopP l fun j (k : Prog ℕ fun _ => K) => .rd i fun w => .wr i (F j w) k) a
      = some (update a i (l.foldl (fun w j => F j w) (a i))) := by
  induction l generalizing a with
  | nil => simp [loopP, run]
  | cons j l ih =>
    unfold loopP at ih ⊢
    rw [List.foldr_cons]
    show run (List.foldr _ _ l) (update a i (F j (a i))) = _
    rw [ih]
    simp

theorem within_fold (i : ℕ) (F : ℕ → K → K) (l : List ℕ) :
    Within {i} ∅ (loopP l fun j (k : Prog ℕ fun _ => K) => .rd i fun w => .wr i (F j w) k) := by
  induction l with
  | nil => trivial
  | cons j l ih =>
    unfold loopP at ih ⊢
    rw [List.foldr_cons]
    exact ⟨Or.inl rfl, fun v => ⟨rfl, ih⟩⟩

/-- **C64, `row_max_abs_value`.** -/
theorem C64_rowMaxAbs (hA : Is A m n f) (v : Arr K) (hv : v.size = m) :
    ∃ v', rowMaxAbsR A v = Out.one v' ∧ v'.size = m ∧
      ∀ i < m, IsMaxAbs (v'.get i) 1 n fun _ j => f i j := by
  unfold rowMaxAbsR
  rw [hA.hm, hA.hn, Out.check_pos hv]
  by_cases h0 : m = 0
  · rw [if_pos h0]
    exact ⟨_, rfl, hv, fun i hi => by omega⟩
  rw [if_neg h0, forallR_congr (b' := fun i => loopP (List.range n) fun j k => .rd i fun w =>
        .wr i (if w > |A.data (i * n + j)| then w else |A.data (i * n + j)|) k)
      (fun i hi => loads_row hA hi _)]
  let z : ℕ → K := fun i => if i < v.size then 0 else v.get i
  let F : ℕ → ℕ → K → K := fun i j w => if w > |A.data (i * n + j)| then w else |A.data (i * n + j)|
  let M : ℕ → K := fun i => if i < m then (List.range n).foldl (fun w j => F i j w) 0 else z i
  have hz : ∀ i < m, z i = 0 := fun i hi => if_pos (by omega)
  have hone : forallR m (fun i => loopP (List.range n) fun j (k : Prog ℕ fun _ => K) =>
      .rd i fun w => .wr i (F i j w) k) z = Out.one M := by
    refine forallR_race_free M (fun i => {i}) (fun _ => ∅)
      (fun i => update z i ((List.range n).foldl (fun w j => F i j w) (z i)))
      (fun i _ => within_fold i (F i) _) ?_ (fun i _ => run_fold i (F i) _ z) ?_ ?_
    · intro i j _ _ hij l hl
      rw [Set.mem_singleton_iff] at hl
      subst hl
      exact ⟨fun h => hij h, fun h => h⟩
    · intro i hi l hl
      rw [Set.mem_singleton_iff] at hl
      subst hl
      simp only [M, if_pos hi, update_self, hz l hi]
    · intro l hl
      exact if_neg fun h => hl l h rfl
  refine ⟨_, onArr_one hone, hv, fun i hi => ?_⟩
  have e : M i = (List.range n).foldl (fun v j => if v < |f i j| then |f i j| else v) 0 := by
    simp only [M, if_pos hi]
    refine List.foldl_ext _ _ _ fun w j hj => ?_
    have hd : A.data (i * n + j) = f i j := hA.get hi (List.mem_range.1 hj)
    simp only [F, hd]
    rcases lt_trichotomy w |f i j| with h | h | h
    · rw [if_neg (not_lt.2 h.le), if_pos h]
    · rw [if_neg (not_lt.2 h.le), if_neg (not_lt.2 h.ge), h]
    · rw [if_pos h, if_neg (not_lt.2 h.le)]
  show IsMaxAbs (M i) 1 n _
  rw [e]
  obtain ⟨b1, b2, b3⟩ := fold_max (List.range n) (fun j => |f i j|) 0
  refine ⟨fun _ _ j hj => b2 j (List.mem_range.2 hj), ?_⟩
  rcases b3 with b3 | ⟨j, hj, b3⟩
  · rcases Nat.eq_zero_or_pos n with hn | hn
    · exact Or.inl ⟨b3, Or.inr hn⟩
    · refine Or.inr ⟨0, by omega, 0, hn, ?_⟩
      have := b2 0 (List.mem_range.2 hn)
      rw [b3] at this ⊢
      exact le_antisymm (abs_nonneg _) this
  · exact Or.inr ⟨0, by omega, j, List.mem_range.1 hj, b3⟩

/-- **C64, `scale_row` (partial: what the code does).** The rows are multiplied, whatever `inv_scale`
is (`C64_scaleRow_refuted`). -/
theorem C64_scaleRow_partial (hA : Is A m n f) (v : Arr K) (hv : v.size = m) (inv : Bool) :
    ∃ A', scaleRowR A v inv = Out.one A' ∧ A'.cap = A.cap ∧ Is A' m n fun i j => v.get i * f i j := by
  unfold scaleRowR
  rw [hA.hm, hA.hn]
  let M : ℕ → K := fun l => if l < m * n then A.data l * v.get (l / n) else A.data l
  have hMv : ∀ i < m, ∀ j < n, M (i * n + j) = A.data (i * n + j) * v.get i := by
    intro i hi j hj
    simp only [M, if_pos (pos_lt_size hi hj), pos_div hj]
  have hone : forallR m (fun i => loads v i 0 1 (loads A.arr (i * n) 1 n
      (loopP (List.range n) fun j k =>
        .rd (i * n + j) fun w => .wr (i * n + j) (w * v.get i) k))) A.data = Out.one M := by
    refine forallR_upd M (fun i => (List.range n).map fun j => (i * n + j, fun w => w * v.get i))
      (fun i hi => ?_) ?_ ?_ ?_ ?_
    · rw [loads_one (by omega), loads_row hA hi]
      exact loopP_upd _ (fun j => i * n + j) fun _ w => w * v.get i
    · intro i _
      rw [List.map_map]
      exact List.Nodup.map (fun a b e => by simpa using e) List.nodup_range
    · intro i j hi hj hij u hu w hw e
      obtain ⟨a, ha, rfl⟩ := List.mem_map.1 hu
      obtain ⟨b, hb, rfl⟩ := List.mem_map.1 hw
      exact hij ((pos_inj (List.mem_range.1 ha) (List.mem_range.1 hb)).1 e).1
    · intro i hi u hu
      obtain ⟨a, ha, rfl⟩ := List.mem_map.1 hu
      exact hMv i hi a (List.mem_range.1 ha)
    · intro l hl
      refine if_neg fun h => ?_
      obtain ⟨h1, h2, h3⟩ := pos_pair (n := n) (m := m) (by rwa [Nat.mul_comm] at h)
      exact hl _ h1 (l / n * n + l % n, fun w => w * v.get (l / n))
        (List.mem_map.2 ⟨_, List.mem_range.2 h2, rfl⟩) h3.symm
  refine ⟨_, onMat_one hone, rfl, is_put hA _ fun i hi j hj => ?_⟩
  show M (i * n + j) = _
  rw [hMv i hi j hj, mul_comm, ← hA.get hi hj]
  rfl

/-- With `inv_scale` the host divides the rows, the device multiplies them. -/
theorem C64_scaleRow_refuted (hA : Is A m n f) (v : Arr K) (hv : v.size = m) {i j : ℕ} (hi : i < m)
    (hj : j < n) (hf : f i j ≠ 0) (hvi : v.get i ≠ (v.get i)⁻¹) :
    ∃ A₁ A₂, scaleRow A v true = some A₁ ∧ A₁.at i j = (v.get i)⁻¹ * f i j ∧
      scaleRowR A v true = Out.one A₂ ∧ A₂.at i j ≠ (v.get i)⁻¹ * f i j := by
  obtain ⟨A₁, h1, -, h2⟩ := C58_scaleRow hA v hv true
  obtain ⟨A₂, h3, -, h4⟩ := C64_scaleRow_partial hA v hv true
  refine ⟨A₁, A₂, h1, by rw [h2.val i hi j hj, if_pos rfl], h3, ?_⟩
  rw [h4.val i hi j hj]
  exact fun e => hvi (mul_right_cancel₀ hf e)

/-! ## Symmetry -/

/-- Copies from one element to another. -/
def copyP : List (ℕ × ℕ) → Prog ℕ fun _ => K
  | [] => .ret
  | (s, d) :: t => .rd s fun w => .wr d w (copyP t)

theorem copyP_within (us : List (ℕ × ℕ)) (W R : Set ℕ) (h : ∀ u ∈ us, u.1 ∈ R ∧ u.2 ∈ W) :
    Within W R (copyP (K := K) us) := by
  induction us with
  | nil => trivial
  | cons u us ih =>
    have h1 := h u List.mem_cons_self
    exact ⟨Or.inr h1.1, fun v => ⟨h1.2, ih fun u' hu => h u' (List.mem_cons_of_mem _ hu)⟩⟩

theorem run_copyP (us : List (ℕ × ℕ)) (hnd : (us.map Prod.snd).Nodup)
    (hsd : ∀ u ∈ us, ∀ w ∈ us, u.1 ≠ w.2) (a : ℕ → K) :
    ∃ r : ℕ → K, run (copyP us) a = some r ∧ (∀ u ∈ us, r u.2 = a u.1) ∧
      ∀ l, l ∉ us.map Prod.snd → r l = a l := by
  induction us generalizing a with
  | nil => exact ⟨a, rfl, by simp, fun _ _ => rfl⟩
  | cons u us ih =>
    rw [List.map_cons, List.nodup_cons] at hnd
    obtain ⟨r, h1, h2, h3⟩ := ih hnd.2
      (fun x hx w hw => hsd x (List.mem_cons_of_mem _ hx) w (List.mem_cons_of_mem _ hw))
      (update a u.2 (a u.1))
    refine ⟨r, h1, fun w hw => ?_, fun l hl => ?_⟩
    · rcases List.mem_cons.1 hw with rfl | hw
      · rw [h3 _ hnd.1, update_self]
      · rw [h2 w hw, update_of_ne]
        exact hsd w (List.mem_cons_of_mem _ hw) u List.mem_cons_self
    · rw [List.map_cons, List.mem_cons, not_or] at hl
      rw [h3 l hl.2, update_of_ne hl.1]

/-- Copies to different elements, none of which is a source. -/
theorem forallR_copies {N : ℕ} {body : ℕ → Prog ℕ fun _ => K} {a : ℕ → K} (M : ℕ → K)
    (us : ℕ → List (ℕ × ℕ)) (hb : ∀ i, i < N → body i = copyP (us i))
    (hnd : ∀ i, i < N → ((us i).map Prod.snd).Nodup)
    (hsd : ∀ i j, i < N → j < N → ∀ u ∈ us i, ∀ w ∈ us j, u.1 ≠ w.2)
    (hd : ∀ i j, i < N → j < N → i ≠ j → ∀ u ∈ us i, ∀ w ∈ us j, u.2 ≠ w.2)
    (hM : ∀ i, i < N → ∀ u ∈ us i, M u.2 = a u.1)
    (hM' : ∀ l, (∀ i, i < N → ∀ u ∈ us i, u.2 ≠ l) → M l = a l) :
    forallR N body a = Out.one M := by
  rw [forallR_congr hb]
  have hex : ∀ i, ∃ r : ℕ → K, i < N → run (copyP (us i)) a = some r ∧
      (∀ u ∈ us i, r u.2 = a u.1) ∧ ∀ l, l ∉ (us i).map Prod.snd → r l = a l := by
    intro i
    by_cases hi : i < N
    · obtain ⟨r, h⟩ := run_copyP (us i) (hnd i hi) (hsd i i hi hi) a
      exact ⟨r, fun _ => h⟩
    · exact ⟨a, fun h => absurd h hi⟩
  choose r hr using hex
  refine forallR_race_free M (fun i => {l | l ∈ (us i).map Prod.snd})
    (fun i => {l | l ∈ (us i).map Prod.fst}) r ?_ ?_ (fun i hi => (hr i hi).1) ?_ ?_
  · intro i _
    exact copyP_within _ _ _ fun u hu => ⟨List.mem_map_of_mem hu, List.mem_map_of_mem hu⟩
  · intro i j hi hj hij l hl
    obtain ⟨u, hu, rfl⟩ := List.mem_map.1 hl
    refine ⟨fun h => ?_, fun h => ?_⟩
    · obtain ⟨w, hw, e⟩ := List.mem_map.1 h
      exact hd i j hi hj hij u hu w hw e.symm
    · obtain ⟨w, hw, e⟩ := List.mem_map.1 h
      exact hsd j i hj hi w hw u hu e
  · intro i hi l hl
    obtain ⟨u, hu, rfl⟩ := List.mem_map.1 hl
    rw [hM i hi u hu, (hr i hi).2.1 u hu]
  · intro l hl
    exact hM' l fun i hi u hu e => hl i hi (List.mem_map.2 ⟨u, hu, e⟩)

theorem loopP_copy {size : ℕ} (l : List ℕ) (s d : ℕ → ℕ) (h : ∀ k ∈ l, s k < size ∧ d k < size) :
    loopP l (fun k (p : Prog ℕ fun _ => K) =>
      assertP (s k < size ∧ d k < size) (.rd (s k) fun w => .wr (d k) w p))
      = copyP (l.map fun k => (s k, d k)) := by
  induction l with
  | nil => rfl
  | cons a l ih =>
    have ih := ih fun k hk => h k (List.mem_cons_of_mem _ hk)
    unfold loopP at ih ⊢
    rw [List.foldr_cons, ih, assertP, if_pos (h a List.mem_cons_self)]
    rfl

/-- **C64, `overwriteUpperTriangleWithLower`.** -/
theorem C64_upperWithLower (hA : Is A n n f) :
    ∃ A', upperWithLowerR A = Out.one A' ∧ A'.cap = A.cap ∧
      Is A' n n fun i j => if j ≤ i then f i j else f j i := by
  unfold upperWithLowerR
  rw [hA.hm, hA.hn]
  let M : ℕ → K := fun l => if l < n * n ∧ l / n < l % n then A.data (l % n * n + l / n) else A.data l
  have hMv : ∀ i < n, ∀ j < n, M (i * n + j)
      = if i < j then A.data (j * n + i) else A.data (i * n + j) := by
    intro i hi j hj
    simp only [M, pos_div hj, pos_mod hj, pos_lt_size hi hj, true_and]
  have hone : forallR n (fun i => loopP (List.range (n - (i + 1))) fun k p =>
      assertP ((i + 1 + k) * n + i < A.arr.size ∧ i * n + (i + 1 + k) < A.arr.size)
        (.rd ((i + 1 + k) * n + i) fun w => .wr (i * n + (i + 1 + k)) w p)) A.data = Out.one M := by
    refine forallR_copies M (fun i => (List.range (n - (i + 1))).map fun k =>
      ((i + 1 + k) * n + i, i * n + (i + 1 + k))) (fun i hi => ?_) ?_ ?_ ?_ ?_ ?_
    · exact loopP_copy _ (fun k => (i + 1 + k) * n + i) (fun k => i * n + (i + 1 + k)) fun k hk => by
        rw [List.mem_range] at hk
        exact ⟨inSize hA (by omega) (by omega), inSize hA (by omega) (by omega)⟩
    · intro i _
      rw [List.map_map]
      exact List.Nodup.map (fun a b e => by simpa using e) List.nodup_range
    · intro i j hi hj u hu w hw e
      obtain ⟨a, ha, rfl⟩ := List.mem_map.1 hu
      obtain ⟨b, hb, rfl⟩ := List.mem_map.1 hw
      rw [List.mem_range] at ha hb
      have := (pos_inj (by omega) (by omega)).1 e
      omega
    · intro i j hi hj hij u hu w hw e
      obtain ⟨a, ha, rfl⟩ := List.mem_map.1 hu
      obtain ⟨b, hb, rfl⟩ := List.mem_map.1 hw
      rw [List.mem_range] at ha hb
      exact hij ((pos_inj (by omega) (by omega)).1 e).1
    · intro i hi u hu
      obtain ⟨a, ha, rfl⟩ := List.mem_map.1 hu
      rw [List.mem_range] at ha
      show M (i * n + (i + 1 + a)) = _
      rw [hMv i hi _ (by omega), if_pos (by omega)]
    · intro l hl
      refine if_neg fun ⟨h, h'⟩ => ?_
      obtain ⟨h1, h2, h3⟩ := pos_pair (n := n) (m := n) h
      refine hl _ h1 ((l / n + 1 + (l % n - (l / n + 1))) * n + l / n,
        l / n * n + (l / n + 1 + (l % n - (l / n + 1))))
        (List.mem_map.2 ⟨l % n - (l / n + 1), List.mem_range.2 (by omega), rfl⟩) ?_
      show l / n * n + (l / n + 1 + (l % n - (l / n + 1))) = l
      omega
  refine ⟨_, onMat_one hone, rfl, is_put hA _ fun i hi j hj => ?_⟩
  show M (i * n + j) = _
  rw [hMv i hi j hj]
  by_cases h : i < j
  · rw [if_pos h, if_neg (by omega)]; exact hA.get hj hi
  · rw [if_neg h, if_pos (by omega)]; exact hA.get hi hj

/-- **C64, `overwriteLowerTriangleWithUpper`.** -/
theorem C64_lowerWithUpper (hA : Is A n n f) :
    ∃ A', lowerWithUpperR A = Out.one A' ∧ A'.cap = A.cap ∧
      Is A' n n fun i j => if i ≤ j then f i j else f j i := by
  unfold lowerWithUpperR
  rw [hA.hm, hA.hn]
  let M : ℕ → K := fun l => if l < n * n ∧ l % n < l / n then A.data (l % n * n + l / n) else A.data l
  have hMv : ∀ i < n, ∀ j < n, M (i * n + j)
      = if j < i then A.data (j * n + i) else A.data (i * n + j) := by
    intro i hi j hj
    simp only [M, pos_div hj, pos_mod hj, pos_lt_size hi hj, true_and]
  have hone : forallR (n - 1) (fun i => loopP (List.range (i + 1)) fun j p =>
      assertP (j * n + (i + 1) < A.arr.size ∧ (i + 1) * n + j < A.arr.size)
        (.rd (j * n + (i + 1)) fun w => .wr ((i + 1) * n + j) w p)) A.data = Out.one M := by
    refine forallR_copies M (fun i => (List.range (i + 1)).map fun j =>
      (j * n + (i + 1), (i + 1) * n + j)) (fun i hi => ?_) ?_ ?_ ?_ ?_ ?_
    · exact loopP_copy _ (fun j => j * n + (i + 1)) (fun j => (i + 1) * n + j) fun k hk => by
        rw [List.mem_range] at hk
        exact ⟨inSize hA (by omega) (by omega), inSize hA (by omega) (by omega)⟩
    · intro i _
      rw [List.map_map]
      exact List.Nodup.map (fun a b e => by simpa using e) List.nodup_range
    · intro i j hi hj u hu w hw e
      obtain ⟨a, ha, rfl⟩ := List.mem_map.1 hu
      obtain ⟨b, hb, rfl⟩ := List.mem_map.1 hw
      rw [List.mem_range] at ha hb
      have := (pos_inj (by omega) (by omega)).1 e
      omega
    · intro i j hi hj hij u hu w hw e
      obtain ⟨a, ha, rfl⟩ := List.mem_map.1 hu
      obtain ⟨b, hb, rfl⟩ := List.mem_map.1 hw
      rw [List.mem_range] at ha hb
      have := ((pos_inj (by omega) (by omega)).1 e).1
      omega
    · intro i hi u hu
      obtain ⟨a, ha, rfl⟩ := List.mem_map.1 hu
      rw [List.mem_range] at ha
      show M ((i + 1) * n + a) = _
      rw [hMv (i + 1) (by omega) a (by omega), if_pos (by omega)]
    · intro l hl
      refine if_neg fun ⟨h, h'⟩ => ?_
      obtain ⟨h1, h2, h3⟩ := pos_pair (n := n) (m := n) h
      refine hl (l / n - 1) (by omega) (l % n * n + (l / n - 1 + 1), (l / n - 1 + 1) * n + l % n)
        (List.mem_map.2 ⟨l % n, List.mem_range.2 (by omega), rfl⟩) ?_
      show (l / n - 1 + 1) * n + l % n = l
      rw [show l / n - 1 + 1 = l / n by omega]
      exact h3.symm
  refine ⟨_, onMat_one hone, rfl, is_put hA _ fun i hi j hj => ?_⟩
  show M (i * n + j) = _
  rw [hMv i hi j hj]
  by_cases h : j < i
  · rw [if_pos h, if_neg (by omega)]; exact hA.get hj hi
  · rw [if_neg h, if_pos (by omega)]; exact hA.get hi hj

/-- `p` is `q`, or loads an element, ignores it, and goes on as `q`. -/
def Lazy (p q : Prog ℕ fun _ => K) : Prop := p = q ∨ ∃ l, p = .rd l fun _ => q

theorem lazy_exec {N : ℕ} {P Q : Fin N → Prog ℕ fun _ => K} {a : ℕ → K} (h : ∀ i, Lazy (P i) (Q i))
    {s : (Fin N → Prog ℕ fun _ => K) × (ℕ → K)} (he : Exec (P, a) s) :
    ∃ Q', Exec (Q, a) (Q', s.2) ∧ ∀ i, Lazy (s.1 i) (Q' i) := by
  induction he with
  | refl => exact ⟨Q, .refl, h⟩
  | tail _ hs ih =>
    obtain ⟨Q', h1, h2⟩ := ih
    obtain ⟨P1, m1, i, p, m2, hact⟩ := hs
    rcases h2 i with e | ⟨l, e⟩
    · refine ⟨update Q' i p, h1.tail (Step.mk Q' m1 i p m2 (e ▸ hact)), fun j => ?_⟩
      by_cases hj : j = i
      · subst hj; simp [Lazy]
      · simpa [hj] using h2 j
    · simp only at e
      rw [e] at hact
      simp only [act, Option.some.injEq, Prod.mk.injEq] at hact
      obtain ⟨rfl, rfl⟩ := hact
      refine ⟨Q', h1, fun j => ?_⟩
      by_cases hj : j = i
      · subst hj; simp [Lazy]
      · simpa [hj] using h2 j

/-- Loads whose values are not used do not matter, even of elements that other iterations store. -/
theorem forallR_lazy {N : ℕ} {b b' : ℕ → Prog ℕ fun _ => K} {a M : ℕ → K}
    (h : ∀ i, i < N → Lazy (b i) (b' i)) (hb' : forallR N b' a = Out.one M) :
    forallR N b a = Out.one M := by
  have hmem : ∀ o, o ∈ forallR N b' a → o = some M := ((Out.eq_one_iff _ _).1 hb').2
  refine forallR_one ?_ ?_
  · rintro ⟨P, m', he, i, hi⟩
    obtain ⟨Q, h1, h2⟩ := lazy_exec (Q := fun i : Fin N => b' i) (fun i => h i i.2) he
    have : none ∈ forallR N b' a := Or.inr ⟨rfl, Q, m', h1, i, by
      rcases h2 i with e | ⟨l, e⟩
      · rw [← e]; exact hi
      · simp only at e; rw [hi] at e; cases e⟩
    exact absurd (hmem _ this) (by simp)
  · rintro m' ⟨P, he, hP⟩
    obtain ⟨Q, h1, h2⟩ := lazy_exec (Q := fun i : Fin N => b' i) (fun i => h i i.2) he
    have : some m' ∈ forallR N b' a := Or.inl ⟨m', rfl, Q, h1, fun i => by
      rcases h2 i with e | ⟨l, e⟩
      · rw [← e]; exact hP i
      · simp only at e; rw [hP i] at e; cases e⟩
    exact Option.some.inj (hmem _ this)

/-- **C64, `symmetrize`.** Although the entries below the diagonal are loaded by iterations that run
while others store them. -/
theorem C64_symmetrize (hA : Is A n n f) :
    ∃ A', symmetrizeR A = Out.one A' ∧ A'.cap = A.cap ∧
      Is A' n n fun i j => if i ≤ j then f i j else f j i := by
  unfold symmetrizeR
  rw [hA.hm, hA.hn, Out.check_pos rfl]
  let M : ℕ → K := fun l => if l < n * n ∧ l % n < l / n then A.data (l % n * n + l / n) else A.data l
  have hMv : ∀ i < n, ∀ j < n, M (i * n + j)
      = if j < i then A.data (j * n + i) else A.data (i * n + j) := by
    intro i hi j hj
    simp only [M, pos_div hj, pos_mod hj, pos_lt_size hi hj, true_and]
  -- iteration `q` is column `q / n`, row `q % n`
  let us : ℕ → List (ℕ × ℕ) := fun q =>
    if q % n < q / n then [(q % n * n + q / n, q / n * n + q % n)] else []
  have hus : ∀ q u, u ∈ us q → q % n < q / n ∧ u = (q % n * n + q / n, q / n * n + q % n) := by
    intro q u hu
    simp only [us] at hu
    split at hu
    · rename_i h
      exact ⟨h, by simpa using hu⟩
    · simp at hu
  have hc : forallR (n * n) (fun q => copyP (us q)) A.data = Out.one M := by
    refine forallR_copies M us (fun _ _ => rfl) ?_ ?_ ?_ ?_ ?_
    · intro q _
      simp only [us]
      split <;> simp
    · intro q q' hq hq' u hu w hw e
      obtain ⟨h1, rfl⟩ := hus q u hu
      obtain ⟨h2, rfl⟩ := hus q' w hw
      obtain ⟨a1, a2⟩ := pair_of hq
      obtain ⟨b1, b2⟩ := pair_of hq'
      have := (pos_inj a1 b2).1 e
      omega
    · intro q q' hq hq' hne u hu w hw e
      obtain ⟨h1, rfl⟩ := hus q u hu
      obtain ⟨h2, rfl⟩ := hus q' w hw
      obtain ⟨a1, a2⟩ := pair_of hq
      obtain ⟨b1, b2⟩ := pair_of hq'
      obtain ⟨e1, e2⟩ := (pos_inj a2 b2).1 e
      exact hne (pair_ext e1 e2)
    · intro q hq u hu
      obtain ⟨h1, rfl⟩ := hus q u hu
      obtain ⟨a1, a2⟩ := pair_of hq
      show M (q / n * n + q % n) = _
      rw [hMv _ a1 _ a2, if_pos h1]
    · intro l hl
      refine if_neg fun ⟨h, h'⟩ => ?_
      obtain ⟨h1, h2, h3⟩ := pos_pair (n := n) (m := n) h
      refine hl l h (l % n * n + l / n, l / n * n + l % n) ?_ h3.symm
      simp only [us, if_pos h', List.mem_singleton]
  have hone : kernel2 n n (fun j i => assertP (i * n + j < A.arr.size)
      (.rd (i * n + j) fun ij =>
        if i < j then assertP (j * n + i < A.arr.size) (.wr (j * n + i) ij .ret) else .ret))
      A.data = Out.one M := by
    refine forallR_lazy (fun q hq => ?_) hc
    obtain ⟨a1, a2⟩ := pair_of hq
    simp only [assertP, if_pos (inSize hA a1 a2), if_pos (inSize hA a2 a1)]
    by_cases h : q % n < q / n
    · left
      simp only [us, if_pos h]
      rfl
    · right
      refine ⟨q % n * n + q / n, ?_⟩
      simp only [us, if_neg h]
      rfl
  refine ⟨_, onMat_one hone, rfl, is_put hA _ fun i hi j hj => ?_⟩
  show M (i * n + j) = _
  rw [hMv i hi j hj]
  by_cases h : j < i
  · rw [if_pos h, if_neg (by omega)]; exact hA.get hj hi
  · rw [if_neg h, if_pos (by omega)]; exact hA.get hi hj

/-! ## Concrete cases -/

section Examples

/-- The matrix `[[1, 2], [3, 4]]` with room for three rows. -/
def ex : DMat ℚ := ⟨2, 2, 3, fun q => (q : ℚ) + 1, false⟩

theorem ex_is : Is ex 2 2 fun i j => (2 * i + j + 1 : ℚ) :=
  ⟨⟨by decide, by decide⟩, rfl, rfl, fun i _ j _ => by
    show (((i * 2 + j : ℕ) : ℚ) + 1) = _
    push_cast; ring⟩

def exv : Arr ℚ := ⟨2, fun i => (i : ℚ) + 5⟩

/-- `A v` with `v = (5, 6)`: every schedule gives 17 in the first element. -/
example : ∃ y', timesVecR ex 0 exv 1 exv = Out.one y' ∧ y'.get 0 = 17 := by
  obtain ⟨y', h1, -, h2⟩ := C64_timesVec ex_is 0 1 exv exv rfl rfl
  refine ⟨y', h1, ?_⟩
  rw [h2 0 (by decide)]
  simp [Finset.sum_range_succ, exv]
  norm_num

/-- Every schedule of `symmetrize` gives `[[1, 2], [2, 4]]`. -/
example : ∃ A', symmetrizeR ex = Out.one A' ∧ A'.at 1 0 = 2 ∧ A'.at 0 1 = 2 := by
  obtain ⟨A', h1, -, h2⟩ := C64_symmetrize ex_is
  refine ⟨A', h1, ?_, ?_⟩
  · rw [h2.val 1 (by decide) 0 (by decide)]; norm_num
  · rw [h2.val 0 (by decide) 1 (by decide)]; norm_num

/-- The restriction of `copyFrom` is met by a matrix and itself. -/
example : ∃ A', copyFromR ex ex = some A' ∧ A'.cap = 3 :=
  let ⟨A', h, c, _⟩ := C64_copyFrom_partial ex_is ex_is le_rfl
  ⟨A', h, c⟩

/-- A copy to an array with room for the matrix fails. -/
example : copyToR ex ⟨4, fun _ => 0⟩ = none :=
  (C64_copyTo_refuted ex_is ⟨4, fun _ => 0⟩ rfl (by decide) (by decide)).1

/-- `scale_row` with `inv_scale`: the first entry is 5, not 1/5. -/
example : ∃ A₂, scaleRowR ex exv true = Out.one A₂ ∧ A₂.at 0 0 = 5 := by
  obtain ⟨A₂, h, -, h2⟩ := C64_scaleRow_partial ex_is exv rfl true
  refine ⟨A₂, h, ?_⟩
  rw [h2.val 0 (by decide) 0 (by decide)]
  simp [exv]

end Examples

end Hiop.Raja.Dense
