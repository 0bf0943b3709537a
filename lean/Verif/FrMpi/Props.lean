import Verif.FrMpi.Lemmas
import Verif.Mpi.Props
import Verif.Fr.Props

/-!
# C83: the dense restoration problem on several ranks

The specification is the restoration problem on one rank (`Verif/Fr`, whose functions are proved to be the objective,
gradient, constraints and Jacobian of the restoration problem in C48). `Holds q X xs` says that the ranks together hold
the array `X`, each its part of the partition `q`; `HoldsV` says the same of a vector of the base problem.
-/

namespace Hiop.FrMpi

open Hiop.Vec Hiop.Kkt Hiop.QN Hiop.Mpi Hiop.Fr Hiop.Iterate

variable {n mc m P N : ℕ}

/-- Rank `r` holds the entries `q.off r`, …, `q.off (r+1) - 1` of `X`. Specification. -/
def Holds (q : Part N P) (X : ℕ → ℝ) (xs : Fin P → ℕ → ℝ) : Prop :=
  ∀ (r : Fin P), ∀ k < q.len r, xs r k = X (q.off r + k)

/-- The same for a vector. Specification. -/
def HoldsV (p : Part n P) (x : RVec ℝ n) (xs : Fin P → ℕ → ℝ) : Prop :=
  ∀ (r : Fin P) (i : Fin (p.len r)), xs r i = x (p.idx r i)

variable (p : Part n P) (hP : 0 < P)

theorem holdsV_at {x : RVec ℝ n} {xs : Fin P → ℕ → ℝ} (h : HoldsV p x xs) (r : Fin P) {k : ℕ}
    (hk : k < p.len r) (hn : p.off r + k < n) : xs r k = x ⟨p.off r + k, hn⟩ := h r ⟨k, hk⟩

/-- A local index of the restoration problem whose global index is below `n` is a local index of the base problem. -/
theorem len_of_lt (mc m : ℕ) (r : Fin P) {k : ℕ} (hk : k < (frPart p hP mc m).len r)
    (h : (frPart p hP mc m).off r + k < n) : k < p.len r := by
  have h0 := off_lt p hP mc m r
  have h1 := off_succ p hP mc m r
  unfold Part.len at *
  omega

theorem lt_tot (q : Part N P) (r : Fin P) {k : ℕ} (hk : k < q.len r) : q.off r + k < N := (q.idx r ⟨k, hk⟩).isLt

theorem len_le (mc m : ℕ) (r : Fin P) : p.len r ≤ (frPart p hP mc m).len r := by
  have h0 := off_lt p hP mc m r
  have h1 := off_succ p hP mc m r
  have h2 : p.off r ≤ n := off_le p r.isLt.le
  unfold Part.len nTot at *
  omega

theorem putX_at (v : RVec ℝ n) (buf : ℕ → ℝ) (j : ℕ) :
    (sparseL n mc m).putX v buf j = if h : j < n then v ⟨j, h⟩ else buf j := by
  simp only [sparseL, copyTo]
  by_cases h : j < n
  · rw [dif_pos ⟨Nat.zero_le _, by omega⟩, dif_pos h]; rfl
  · rw [dif_neg (by omega), dif_neg h]

/-- `copyToStarting` of the variables gives each rank its part. -/
theorem put_holds {v : RVec ℝ n} {vs : Fin P → ℕ → ℝ} (hv : HoldsV p v vs) (c : ℝ) (r : Fin P) :
    ∃ w, copyToStarting (xVec p r (vs r)) (primal n mc m (frPart p hP mc m).off r fun _ => c) 0 = some w ∧
      ∀ k < (frPart p hP mc m).len r,
        w.data k = (sparseL n mc m).putX v (fun _ => c) ((frPart p hP mc m).off r + k) := by
  obtain ⟨w, h, -, hw⟩ := cts_x p hP (mc := mc) (m := m) r (vs r) fun _ => c
  refine ⟨w, h, fun k hk => ?_⟩
  rw [hw k hk, putX_at]
  by_cases h' : (frPart p hP mc m).off r + k < n
  · rw [if_pos h', dif_pos h']
    have := len_of_lt p hP mc m r hk h'
    rw [holdsV_at p hv r this (by rw [← off_lt p hP mc m r]; exact h')]
    simp only [off_lt]
  · rw [if_neg h', dif_neg h']

/-! ## Partition -/

/-- **C83, partition.** When the base problem is distributed, `get_vecdistrib_info` hands out the partition in which
each rank keeps its variables of the base problem and the last rank holds all the new ones. -/
theorem C83_partition (mc m : ℕ) :
    vecDistrib (some p.off) P (nTot n mc m) = some ((List.range (P + 1)).map (frPart p hP mc m).off) := by
  have h : ∀ i ∈ List.range (P + 1), colPartition (some p.off) P (nTot n mc m) i = some ((frPart p hP mc m).off i) := by
    intro i hi
    rw [List.mem_range] at hi
    simp only [colPartition, frPart]
    by_cases h : i < P
    · rw [if_pos h, if_pos h]
    · rw [if_neg h, if_neg h, if_pos (by omega)]
  unfold vecDistrib
  rw [if_pos (by rw [List.all_eq_true]; intro i hi; rw [h i hi]; rfl)]
  congr 1
  apply List.map_congr_left
  intro i hi
  rw [h i hi]
  rfl

/-- **C83, partition, one rank.** Without a distribution the single rank holds everything. -/
theorem C83_partition_one (ntot : ℕ) : vecDistrib none 1 ntot = some [0, ntot] := by
  simp [vecDistrib, colPartition, List.range_succ]

/-- **C83, refuted without a distribution.** When the user's problem is not distributed and there are several ranks,
the solver is handed an entry of the partition that was never written. -/
theorem C83_partition_refuted (ntot : ℕ) (h : 2 ≤ P) : vecDistrib none P ntot = none := by
  unfold vecDistrib
  rw [if_neg]
  rw [List.all_eq_true]
  intro hs
  have h1 := hs 1 (by rw [List.mem_range]; omega)
  simp only [colPartition] at h1
  rw [if_pos (by omega)] at h1
  simp at h1

/-! ## Bounds -/

/-- **C83, bounds.** Each rank obtains its part of the bounds of the variables. -/
theorem C83_bounds (B : Base n mc m) {ls us : Fin P → ℕ → ℝ} (hl : HoldsV p B.xl ls) (hu : HoldsV p B.xu us) :
    ∃ lo up : Fin P → ℕ → ℝ,
      (∀ r, varsInfo p mc m (frPart p hP mc m).off r (ls r) (us r) = some (lo r, up r)) ∧
      Holds (frPart p hP mc m) (Fr.varsInfo (sparseL n mc m) B).1 lo ∧
      Holds (frPart p hP mc m) (Fr.varsInfo (sparseL n mc m) B).2 up := by
  choose w h hw using put_holds p hP (mc := mc) (m := m) hl 0
  choose w' h' hw' using put_holds p hP (mc := mc) (m := m) hu 1e20
  refine ⟨fun r => (w r).data, fun r => (w' r).data, fun r => ?_, fun r => hw r, fun r => hw' r⟩
  simp only [varsInfo, h r, h' r, Option.bind_eq_bind, Option.bind_some]

theorem join_eq (c : RVec ℝ mc) (d : RVec ℝ m) (w0 : PVec) (h0 : w0.n = mc + m ∧ w0.il = 0 ∧ w0.iu = mc + m) :
    ∃ w w', copyToStarting (whole mc (copyTo c (fun _ => 0) 0)) w0 0 = some w ∧
      copyToStarting (whole m (copyTo d (fun _ => 0) 0)) w mc = some w' ∧
      (w'.n = mc + m ∧ w'.il = 0 ∧ w'.iu = mc + m) ∧
      ∀ k < mc + m, w'.data k = copyTo d (copyTo c (fun _ => 0) 0) mc k := by
  obtain ⟨w, h1, h2, h3⟩ := cts_whole mc 0 (mc + m) (copyTo c (fun _ => 0) 0) w0 h0 (by omega)
  obtain ⟨w', g1, g2, g3⟩ := cts_whole m mc (mc + m) (copyTo d (fun _ => 0) 0) w h2 (by omega)
  refine ⟨w, w', h1, g1, g2, fun k hk => ?_⟩
  rw [g3 k]
  by_cases hm : mc ≤ k
  · rw [if_pos (by omega)]
    simp only [copyTo]
    rw [dif_pos ⟨Nat.zero_le _, by omega⟩, dif_pos ⟨hm, by omega⟩]
    rfl
  · rw [if_neg (by omega), h3 k, if_pos (by omega)]
    simp only [copyTo, Nat.sub_zero]
    rw [dif_neg (by omega : ¬(mc ≤ k ∧ k - mc < m))]

/-- **C83, constraint bounds.** Every rank obtains all of them. -/
theorem C83_cons_bounds (B : Base n mc m) :
    ∃ lo up, consInfo B.crhs B.dl B.du = some (lo, up) ∧
      ∀ k < mc + m, lo k = (Fr.consInfo B).1 k ∧ up k = (Fr.consInfo B).2 k := by
  obtain ⟨w, w', h1, h2, h3, h4⟩ := join_eq B.crhs B.dl (whole (mc + m) fun _ => 0) ⟨rfl, rfl, rfl⟩
  obtain ⟨u, g1, g2, g3⟩ := cts_whole m mc (mc + m) (copyTo B.du (fun _ => 0) 0) w' h3 (by omega)
  refine ⟨w'.data, u.data, ?_, fun k hk => ⟨h4 k hk, ?_⟩⟩
  · simp only [consInfo, h1, h2, g1, Option.bind_eq_bind, Option.bind_some]
  · rw [g3 k]
    simp only [Fr.consInfo]
    by_cases hm : mc ≤ k
    · rw [if_pos (by omega)]
      simp only [copyTo]
      rw [dif_pos ⟨Nat.zero_le _, by omega⟩, dif_pos ⟨hm, by omega⟩]
      rfl
    · rw [if_neg (by omega), h4 k hk]
      simp only [copyTo]
      rw [dif_neg (by omega : ¬(mc ≤ k ∧ k - mc < m)), dif_neg (by omega : ¬(mc ≤ k ∧ k - mc < m))]

/-- **C83, kinds of variables, refuted.** The kinds of the new variables are never written: on the last rank the
array the solver reads has unwritten entries as soon as there is a constraint. -/
theorem C83_var_kinds_refuted (r : Fin P) (hr : (r : ℕ) + 1 = P) (h : 0 < mc + m) :
    ∃ k < (frPart p hP mc m).len r, varsType p r k = none := by
  refine ⟨p.len r, ?_, by simp [varsType]⟩
  have h0 := off_lt p hP mc m r
  have h1 := off_succ p hP mc m r
  have h2 : p.off r ≤ n := off_le p r.isLt.le
  unfold Part.len nTot at *
  omega

/-- **C83, kinds of constraints, refuted.** Of the kinds of the `mc + m` constraints only the first `m` are written. -/
theorem C83_cons_kinds_refuted (h : 0 < mc) : ∃ k < mc + m, consType m k = none :=
  ⟨m, by omega, by simp [consType]⟩

/-! ## Evaluations -/

/-- The part of the variables of the base problem in an array of the restoration problem. -/
theorem getX_holds {X : ℕ → ℝ} {xs : Fin P → ℕ → ℝ} (h : Holds (frPart p hP mc m) X xs) :
    HoldsV p ((sparseL n mc m).getX X) xs := by
  intro r i
  have := h r i (lt_of_lt_of_le i.isLt (len_le p hP mc m r))
  rw [this, off_lt]
  simp only [sparseL, copyOut, Part.idx, zero_add]

/-- **C83, objective.** Every rank obtains the objective of the restoration problem at the point the ranks hold
together, whatever the order of the reductions. -/
theorem C83_objective (B : Base n mc m) (Pr : Prob n m) (X : ℕ → ℝ) {xs refs drs : Fin P → ℕ → ℝ}
    (junk : Fin P → ℕ → ℝ) (hx : Holds (frPart p hP mc m) X xs) (hr : HoldsV p Pr.xref refs)
    (hd : HoldsV p Pr.dr drs) :
    ∃ loc : ∀ r : Fin P, ℝ × RVec ℝ (p.len r),
      (∀ r, evalFLocal p mc m (frPart p hP mc m).off Pr.rho r (xs r) (refs r) (drs r) (junk r) = some (loc r)) ∧
      ∀ out, evalF p Pr.zeta loc out ↔ ∀ r, out r = (Fr.evalF (sparseL n mc m) B Pr X).1 := by
  choose w h1 h2 h3 using fun r => cfs_primal p hP (mc := mc) (m := m) r (junk r) (xs r)
  choose u g1 g2 g3 using fun r => cfs_x p r (junk r) (xs r)
  have hv := getX_holds p hP hx
  have e : (fun r : Fin P => fun i : Fin (p.len r) => ((u r).data i + -1 * refs r i) * drs r i)
      = scatter p (componentMult (axpy ((sparseL n mc m).getX X) (-1) Pr.xref) Pr.dr) := by
    funext r i
    simp only [scatter, componentMult, axpy]
    rw [g3 r i i.isLt, hv r i, hr r i, hd r i]
  have es : ∑ r : Fin P, Pr.rho * ((w r).sum - (u r).sum)
      = Pr.rho * (sumLocal (copyOut X 0 (nTot n mc m)) - sumLocal ((sparseL n mc m).getX X)) := by
    rw [← Finset.mul_sum, Finset.sum_sub_distrib, sumLocal_eq_sum, sumLocal_eq_sum,
      ← sum_scatter (frPart p hP mc m), ← sum_scatter p]
    congr 2
    · refine Finset.sum_congr rfl fun r _ => ?_
      rw [sum_eq, ← Finset.sum_range (fun i => (w r).data i), h2 r, Finset.sum_range]
      refine Finset.sum_congr rfl fun i _ => ?_
      rw [h3 r i i.isLt, hx r i i.isLt]
      simp [copyOut, Part.idx]
    · refine Finset.sum_congr rfl fun r _ => ?_
      rw [sum_eq, ← Finset.sum_range (fun i => (u r).data i), g2 r, Finset.sum_range]
      refine Finset.sum_congr rfl fun i _ => ?_
      rw [g3 r i i.isLt, hv r i]
  refine ⟨fun r => (Pr.rho * ((w r).sum - (u r).sum), fun i => ((u r).data i + -1 * refs r i) * drs r i),
    fun r => ?_, fun out => ?_⟩
  · simp only [evalFLocal, h1 r, g1 r, Option.bind_eq_bind, Option.bind_some]
  · unfold evalF
    simp only [e, allreduce_sum, C34_twonorm, es]
    constructor
    · rintro ⟨s, db, hs, hdb, ho⟩ r
      rw [ho r, hs r, hdb r]; rfl
    · intro ho
      exact ⟨_, _, fun _ => rfl, fun _ => rfl, fun r => ho r⟩

/-- **C83, gradient.** Each rank obtains its part of the gradient. -/
theorem C83_gradient (Pr : Prob n m) (X : ℕ → ℝ) {xs refs drs : Fin P → ℕ → ℝ} (junk : Fin P → ℕ → ℝ)
    (hx : Holds (frPart p hP mc m) X xs) (hr : HoldsV p Pr.xref refs) (hd : HoldsV p Pr.dr drs) :
    ∃ g : Fin P → ℕ → ℝ,
      (∀ r, evalGrad p mc m (frPart p hP mc m).off Pr.rho Pr.zeta r (xs r) (refs r) (drs r) (junk r)
        = some (g r)) ∧
      Holds (frPart p hP mc m) (Fr.evalGrad (sparseL n mc m) Pr X) g := by
  choose u g1 g2 g3 using fun r => cfs_x p r (junk r) (xs r)
  have hv := getX_holds p hP hx
  have he : HoldsV p (scale (componentMult (componentMult (axpy ((sparseL n mc m).getX X) (-1) Pr.xref)
      Pr.dr) Pr.dr) Pr.zeta)
      (fun r i => Pr.zeta * (((u r).data i + -1 * refs r i) * drs r i * drs r i)) := by
    intro r i
    have hs : ∀ (y : RVec ℝ n) (c : ℝ) j, scale y c j = c * y j := by
      intro y c j
      unfold scale
      split_ifs with h
      · rw [← h, one_mul]
      · rfl
    rw [hs]
    simp only [componentMult, axpy]
    rw [g3 r i i.isLt, hv r i, hr r i, hd r i]
  choose w h hw using put_holds p hP (mc := mc) (m := m) he Pr.rho
  refine ⟨fun r => (w r).data, fun r => ?_, fun r => hw r⟩
  simp only [evalGrad, g1 r, Option.bind_eq_bind, Option.bind_some, h r]

/-- What the base problem, itself distributed, answers: from the parts of a point, its constraints on every rank.
Hypothesis on the base evaluation (`eval_c_d` of the distributed base problem replicates `c` and `d`). -/
def BaseOk (cd : RVec ℝ n → RVec ℝ mc × RVec ℝ m)
    (base : (Fin P → ℕ → ℝ) → Fin P → RVec ℝ mc × RVec ℝ m) : Prop :=
  ∀ x pts, HoldsV p x pts → ∀ r, base pts r = cd x

theorem addPN_eq {q : ℕ} (x X : ℕ → ℝ) (c0 len pst nst : ℕ) (b : RVec ℝ q) (junk : ℕ → ℝ)
    (hx : ∀ k < len, x k = X (c0 + k)) (h1 : c0 ≤ pst) (h2 : c0 ≤ nst) (h3 : pst + q ≤ c0 + len)
    (h4 : nst + q ≤ c0 + len) :
    addPN x c0 pst nst b junk = some (axpy (axpy b (-1) (copyOut X pst q)) 1 (copyOut X nst q)) := by
  unfold addPN
  by_cases hq : 0 < q
  · rw [if_pos hq, if_pos ⟨h1, h2⟩]
    obtain ⟨w, a1, a2, a3⟩ := cfs_whole q (whole q junk) ⟨rfl, rfl, rfl⟩ fun k => x (pst - c0 + k)
    obtain ⟨w', b1, b2, b3⟩ := cfs_whole q w a2 fun k => x (nst - c0 + k)
    simp only [a1, b1, Option.bind_eq_bind, Option.bind_some]
    rw [a3, b3]
    have e1 : copyOut (fun k => x (pst - c0 + k)) 0 q = copyOut X pst q := by
      funext i
      have := i.isLt
      simp only [copyOut]
      rw [hx _ (by omega)]
      congr 1; omega
    have e2 : copyOut (fun k => x (nst - c0 + k)) 0 q = copyOut X nst q := by
      funext i
      have := i.isLt
      simp only [copyOut]
      rw [hx _ (by omega)]
      congr 1; omega
    rw [e1, e2]
  · rw [if_neg hq]
    congr 1
    funext i
    exact absurd i.isLt (by omega)

/-- **C83, constraints.** Every rank obtains all the constraints of the restoration problem at the point the ranks
hold together. -/
theorem C83_constraints (B : Base n mc m) (oldC : RVec ℝ mc) (oldD : RVec ℝ m) (last : Fin P)
    (hlast : (last : ℕ) + 1 = P) {base : (Fin P → ℕ → ℝ) → Fin P → RVec ℝ mc × RVec ℝ m}
    (hb : BaseOk p (fun x => (B.cd x).getD (oldC, oldD)) base) (X : ℕ → ℝ) {xs : Fin P → ℕ → ℝ} (junk : ℕ → ℝ)
    (hx : Holds (frPart p hP mc m) X xs) :
    ∃ g, evalCons p (frPart p hP mc m).off last base xs junk = some g ∧
      ∀ r, ∀ k < mc + m, g r k = Fr.evalCons (sparseL n mc m) B oldC oldD X k := by
  have hv := getX_holds p hP hx
  choose u g1 g2 g3 using fun r => cfs_x p r junk (xs r)
  have hp : ∀ r, consPoint p r (xs r) junk = some (u r).data := by
    intro r; simp only [consPoint, g1 r, Option.map_some]
  have hpts : HoldsV p ((sparseL n mc m).getX X) (fun r => (consPoint p r (xs r) junk).getD junk) := by
    intro r i
    simp only [hp r, Option.getD_some]
    rw [g3 r i i.isLt, hv r i]
  have hcd : ∀ r, base (fun r => (consPoint p r (xs r) junk).getD junk) r
      = (B.cd ((sparseL n mc m).getX X)).getD (oldC, oldD) := hb _ _ hpts
  set cd := (B.cd ((sparseL n mc m).getX X)).getD (oldC, oldD) with ecd
  have h0 := off_lt p hP mc m last
  have h1 := off_succ p hP mc m last
  have h2 : p.off last ≤ n := off_le p last.isLt.le
  have hl : (frPart p hP mc m).len last = (frPart p hP mc m).off (last + 1) - (frPart p hP mc m).off last := rfl
  have ec := addPN_eq (xs last) X ((frPart p hP mc m).off last) ((frPart p hP mc m).len last) n (n + mc) cd.1 junk
    (hx last) (by omega) (by omega) (by unfold nTot at h1; omega) (by unfold nTot at h1; omega)
  have ed := addPN_eq (xs last) X ((frPart p hP mc m).off last) ((frPart p hP mc m).len last) (n + mc + mc)
    (n + mc + mc + m) cd.2 junk
    (hx last) (by omega) (by omega) (by unfold nTot at h1; omega) (by unfold nTot at h1; omega)
  set c1 : RVec ℝ mc := axpy (axpy cd.1 (-1) (copyOut X n mc)) 1 (copyOut X (n + mc) mc) with ec1
  set d1 : RVec ℝ m := axpy (axpy cd.2 (-1) (copyOut X (n + mc + mc) m)) 1 (copyOut X (n + mc + mc + m) m) with ed1
  have hc : (if 0 < mc then c1 else cd.1) = c1 := by
    split_ifs with h
    · rfl
    · funext i; exact absurd i.isLt (by omega)
  have hd : (if 0 < m then d1 else cd.2) = d1 := by
    split_ifs with h
    · rfl
    · funext i; exact absurd i.isLt (by omega)
  obtain ⟨w, w', j1, j2, -, j4⟩ := join_eq c1 d1 (whole (mc + m) junk) ⟨rfl, rfl, rfl⟩
  have ej : joinCons c1 d1 junk = some w'.data := by
    simp only [joinCons, j1, j2, Option.bind_eq_bind, Option.bind_some]
  refine ⟨fun _ => w'.data, ?_, fun r k hk => ?_⟩
  · unfold evalCons
    rw [if_pos (fun r => by rw [hp r]; rfl)]
    simp only [hcd, ec, ed, Option.bind_eq_bind, Option.bind_some, hc, hd, ej, Option.isSome_some, implies_true, if_true,
      Option.getD_some]
  · show w'.data k = _
    rw [j4 k hk]
    rfl

/-- **C83, Jacobian.** Each rank obtains its columns of the Jacobian of the restoration problem. -/
theorem C83_jacobian (Jc Jd : ℕ → ℕ → ℝ) (r : Fin P) (jc jd : ℕ → ℕ → ℝ)
    (hc : ∀ i < mc, ∀ k < p.len r, jc i k = Jc i (p.off r + k))
    (hd : ∀ i < m, ∀ k < p.len r, jd i k = Jd i (p.off r + k)) :
    ∃ J, setJacFR mc m ((frPart p hP mc m).len r) (p.len r) (decide ((r : ℕ) + 1 = P)) jc jd = some J ∧
      ∀ i < mc + m, ∀ k < (frPart p hP mc m).len r,
        J i k = denseJacFR n mc m Jc Jd i ((frPart p hP mc m).off r + k) := by
  have h0 := off_lt p hP mc m r
  have h1 := off_succ p hP mc m r
  have h2 : p.off r ≤ p.off (r + 1) := p.mono (by omega)
  have h3 : p.off (r + 1) ≤ n := off_le p r.isLt
  have hl : (frPart p hP mc m).len r = (frPart p hP mc m).off (r + 1) - (frPart p hP mc m).off r := rfl
  have hl' : p.len r = p.off (r + 1) - p.off r := rfl
  unfold setJacFR
  rcases h1 with ⟨hr, h1⟩ | ⟨hr, h1, h1'⟩
  · rw [if_neg (by simp; omega)]
    refine ⟨_, rfl, fun i hi k hk => ?_⟩
    have hkl : k < p.len r := by omega
    have hpos : 0 < p.len r := by omega
    have e1 : (frPart p hP mc m).len r = p.len r := by omega
    have hlt : (frPart p hP mc m).off r + k < n := by omega
    rw [e1]
    have hdiv : ∀ t, (t * p.len r + k) / p.len r = t ∧ (t * p.len r + k) % p.len r = k := by
      intro t
      rw [mul_comm]
      exact ⟨by rw [Nat.mul_add_div hpos, Nat.div_eq_of_lt hkl, add_zero],
        by rw [Nat.mul_add_mod, Nat.mod_eq_of_lt hkl]⟩
    by_cases hm : mc ≤ i
    · simp only [copyRows, denseJacFR]
      rw [if_pos ⟨hm, hi.trans_le (by omega)⟩, (hdiv _).1, (hdiv _).2, if_neg (by omega), if_pos hi, if_pos hlt,
        hd _ (by omega) k hkl, h0]
    · simp only [copyRows, denseJacFR]
      rw [if_neg (by omega), if_pos (by omega), (hdiv _).1, (hdiv _).2, if_pos (by omega : i < mc), if_pos hlt,
        Nat.sub_zero, hc _ (by omega) k hkl, h0]
  · have e1 : p.len r + 2 * mc + 2 * m = (frPart p hP mc m).len r := by unfold nTot at h1; omega
    rw [if_pos (by simpa using hr), if_pos e1]
    refine ⟨_, rfl, fun i hi k hk => ?_⟩
    simp only [denseJacFR]
    have ea : (frPart p hP mc m).off r + p.len r = n := by omega
    by_cases hm : i < mc
    · rw [if_pos hm, if_pos hm]
      by_cases hk' : k < p.len r
      · rw [if_neg (by omega), if_neg (by omega), if_pos hk', if_pos (by omega), hc i hm k hk', h0]
      · rw [if_neg (by omega : ¬(frPart p hP mc m).off r + k < n), if_neg hk']
        have a1 : (k = p.len r + mc + i) ↔ ((frPart p hP mc m).off r + k = n + mc + i) := by omega
        have a2 : (k = p.len r + i) ↔ ((frPart p hP mc m).off r + k = n + i) := by omega
        simp only [a1, a2]
    · rw [if_neg hm, if_neg hm, if_pos hi, if_pos hi]
      by_cases hk' : k < p.len r
      · rw [if_neg (by omega), if_neg (by omega), if_pos hk', if_pos (by omega), hd _ (by omega) k hk', h0]
      · rw [if_neg (by omega : ¬(frPart p hP mc m).off r + k < n), if_neg hk']
        have a1 : (k = p.len r + 2 * mc + m + (i - mc)) ↔
          ((frPart p hP mc m).off r + k = n + 2 * mc + m + (i - mc)) := by omega
        have a2 : (k = p.len r + 2 * mc + (i - mc)) ↔
          ((frPart p hP mc m).off r + k = n + 2 * mc + (i - mc)) := by omega
        simp only [a1, a2]

/-! ## Starting point -/

/-- The point and the four blocks put together give each rank its part. -/
theorem assemble_holds {x : RVec ℝ n} {xs : Fin P → ℕ → ℝ} (hx : HoldsV p x xs) (pe ne : RVec ℝ mc)
    (pi ni : RVec ℝ m) (bufs : Fin P → ℕ → ℝ) (buf : ℕ → ℝ) :
    ∃ w : Fin P → ℕ → ℝ, (∀ r, assemble p (frPart p hP mc m).off r (xs r) pe ne pi ni (bufs r) = some (w r)) ∧
      Holds (frPart p hP mc m) (putPN (sparseL n mc m) pe ne pi ni ((sparseL n mc m).putX x buf)) w := by
  choose w0 h0 f0 d0 using fun r => cts_x p hP (mc := mc) (m := m) r (xs r) (bufs r)
  choose w1 h1 f1 d1 using fun r => cts_rep p hP r mc n (copyTo pe (fun _ => 0) 0) (bufs r) (w0 r) (f0 r) le_rfl
    (by unfold nTot; omega)
  choose w2 h2 f2 d2 using fun r => cts_rep p hP r mc (n + mc) (copyTo ne (fun _ => 0) 0) (bufs r) (w1 r)
    ((f0 r).trans (f1 r)) (by omega) (by unfold nTot; omega)
  choose w3 h3 f3 d3 using fun r => cts_rep p hP r m (n + 2 * mc) (copyTo pi (fun _ => 0) 0) (bufs r) (w2 r)
    (((f0 r).trans (f1 r)).trans (f2 r)) (by omega) (by unfold nTot; omega)
  choose w4 h4 f4 d4 using fun r => cts_rep p hP r m (n + 2 * mc + m) (copyTo ni (fun _ => 0) 0) (bufs r) (w3 r)
    ((((f0 r).trans (f1 r)).trans (f2 r)).trans (f3 r)) (by omega) (by unfold nTot; omega)
  refine ⟨fun r => (w4 r).data, fun r => ?_, fun r k hk => ?_⟩
  · simp only [assemble, h0 r, h1 r, h2 r, h3 r, h4 r, Option.bind_eq_bind, Option.bind_some]
  · have hj := lt_tot (frPart p hP mc m) r hk
    have hown := len_of_lt p hP mc m r hk
    have heq := off_lt p hP mc m r
    show (w4 r).data k = _
    rw [d4 r k hk, d3 r k hk, d2 r k hk, d1 r k hk, d0 r k hk]
    have hpx : ∀ h : (frPart p hP mc m).off r + k < n, xs r k = x ⟨(frPart p hP mc m).off r + k, h⟩ := by
      intro h
      rw [holdsV_at p hx r (hown h) (by omega)]
      simp only [heq]
    have hput := putX_at (mc := mc) (m := m) x buf ((frPart p hP mc m).off r + k)
    generalize (frPart p hP mc m).off r + k = j at *
    have cin : ∀ {q : ℕ} (v : RVec ℝ q) (b : ℕ → ℝ) (st i : ℕ) (h : st ≤ i ∧ i - st < q),
        copyTo v b st i = v ⟨i - st, h.2⟩ := fun v b st i h => by rw [copyTo, dif_pos h]
    have cout : ∀ {q : ℕ} (v : RVec ℝ q) (b : ℕ → ℝ) (st i : ℕ), ¬(st ≤ i ∧ i - st < q) →
        copyTo v b st i = b i := fun v b st i h => by rw [copyTo, dif_neg h]
    have s1 : (sparseL n mc m).pe = n := rfl
    have s2 : (sparseL n mc m).ne = n + mc := rfl
    have s3 : (sparseL n mc m).pi = n + mc + mc := rfl
    have s4 : (sparseL n mc m).ni = n + mc + mc + m := rfl
    unfold putPN
    unfold nTot at hj
    rw [s1, s2, s3, s4]
    rcases Nat.lt_or_ge j n with a | a
    · rw [if_neg (by omega), if_neg (by omega), if_neg (by omega), if_neg (by omega), if_pos a,
        cout _ _ _ _ (by omega), cout _ _ _ _ (by omega), cout _ _ _ _ (by omega), cout _ _ _ _ (by omega), hput,
        dif_pos a, hpx a]
    rcases Nat.lt_or_ge j (n + mc) with b | b
    · rw [if_neg (by omega), if_neg (by omega), if_neg (by omega), if_pos (by omega),
        cout ni _ _ _ (by omega), cout pi _ _ _ (by omega), cout ne _ _ _ (by omega), cin pe _ n j (by omega),
        cin pe _ 0 (j - n) (by omega)]
      rfl
    rcases Nat.lt_or_ge j (n + mc + mc) with c | c
    · rw [if_neg (by omega), if_neg (by omega), if_pos (by omega),
        cout ni _ _ _ (by omega), cout pi _ _ _ (by omega), cin ne _ (n + mc) j (by omega),
        cin ne _ 0 (j - (n + mc)) (by omega)]
      rfl
    rcases Nat.lt_or_ge j (n + mc + mc + m) with d | d
    · rw [if_neg (by omega), if_pos (by omega),
        cout ni _ _ _ (by omega), cin pi _ (n + mc + mc) j (by omega),
        cin pi _ 0 (j - (n + 2 * mc)) (by omega)]
      congr 1
      apply Fin.ext
      simp only
      omega
    · rw [if_pos (by omega), cin ni _ (n + mc + mc + m) j (by omega), cin ni _ 0 (j - (n + 2 * mc + m)) (by omega)]
      congr 1
      apply Fin.ext
      simp only
      omega

/-- The state of the base solver on rank `r`. Specification. -/
def baseSt (B : Base n mc m) (c : RVec ℝ mc) (d : RVec ℝ m) (it : It ℝ n mc m) (refs zls zus : Fin P → ℕ → ℝ)
    (r : Fin P) : BaseSt mc m :=
  ⟨refs r, zls r, zus r, c, d, it.d, B.crhs⟩

/-- **C83, starting point.** Each rank obtains its part of the starting point and of the bound multipliers. -/
theorem C83_warm_start (B : Base n mc m) (Pr : Prob n m) (c : RVec ℝ mc) (d : RVec ℝ m) (it : It ℝ n mc m)
    {refs zls zus : Fin P → ℕ → ℝ} (hr : HoldsV p Pr.xref refs) (hl : HoldsV p it.zl zls)
    (hu : HoldsV p it.zu zus) :
    ∃ x0 zl0 zu0 : Fin P → ℕ → ℝ,
      (∀ r, warmStart p (frPart p hP mc m).off Pr.mu Pr.rho r (baseSt B c d it refs zls zus r)
        = some (x0 r, zl0 r, zu0 r)) ∧
      Holds (frPart p hP mc m) (Fr.warmStart (sparseL n mc m) B Pr c d it).x0 x0 ∧
      Holds (frPart p hP mc m) (Fr.warmStart (sparseL n mc m) B Pr c d it).zl0 zl0 ∧
      Holds (frPart p hP mc m) (Fr.warmStart (sparseL n mc m) B Pr c d it).zu0 zu0 := by
  have hmin : ∀ {v : RVec ℝ n} {vs : Fin P → ℕ → ℝ}, HoldsV p v vs →
      HoldsV p (componentMinC v Pr.rho) fun r => minC (vs r) Pr.rho := by
    intro v vs h r i
    simp only [componentMinC, minC, h r i]
  obtain ⟨x0, a1, a2⟩ := assemble_holds p hP (mc := mc) (m := m) hr
    (pn Pr.mu Pr.rho (axpy c (-1) B.crhs)).1 (pn Pr.mu Pr.rho (axpy c (-1) B.crhs)).2
    (pn Pr.mu Pr.rho (axpy d (-1) it.d)).1 (pn Pr.mu Pr.rho (axpy d (-1) it.d)).2 (fun _ _ => 0) fun _ => 0
  obtain ⟨zl0, b1, b2⟩ := assemble_holds p hP (mc := mc) (m := m) (hmin hl)
    (muInv Pr.mu (pn Pr.mu Pr.rho (axpy c (-1) B.crhs)).1) (muInv Pr.mu (pn Pr.mu Pr.rho (axpy c (-1) B.crhs)).2)
    (muInv Pr.mu (pn Pr.mu Pr.rho (axpy d (-1) it.d)).1) (muInv Pr.mu (pn Pr.mu Pr.rho (axpy d (-1) it.d)).2) x0
    fun _ => 0
  choose w h hw using put_holds p hP (mc := mc) (m := m) (hmin hu) 0
  refine ⟨x0, zl0, fun r => (w r).data, fun r => ?_, a2, b2, fun r => hw r⟩
  simp only [warmStart, baseSt, a1 r, b1 r, h r, Option.bind_eq_bind, Option.bind_some]

/-- **C83, forced update.** Each rank obtains its part of the point with the new `p` and `n`. -/
theorem C83_force (B : Base n mc m) (Pr : Prob n m) (c : RVec ℝ mc) (d : RVec ℝ m) (it : It ℝ n mc m)
    (refs zls zus : Fin P → ℕ → ℝ) (X : ℕ → ℝ) {xs : Fin P → ℕ → ℝ} (junk : Fin P → ℕ → ℝ)
    (hx : Holds (frPart p hP mc m) X xs) :
    ∃ y : Fin P → ℕ → ℝ,
      (∀ r, forceUpdate p (frPart p hP mc m).off Pr.mu Pr.rho r (baseSt B c d it refs zls zus r) (xs r) (junk r)
        = some (y r)) ∧
      Holds (frPart p hP mc m) (Fr.forceUpdate (sparseL n mc m) B Pr c d it X) y := by
  choose u g1 g2 g3 using fun r => cfs_x p r (junk r) (xs r)
  have hv : HoldsV p ((sparseL n mc m).getX X) fun r => (u r).data := by
    intro r i
    show (u r).data i = _
    rw [g3 r i i.isLt, getX_holds p hP hx r i]
  obtain ⟨y, a1, a2⟩ := assemble_holds p hP (mc := mc) (m := m) hv
    (pn Pr.mu Pr.rho (axpy c (-1) B.crhs)).1 (pn Pr.mu Pr.rho (axpy c (-1) B.crhs)).2
    (pn Pr.mu Pr.rho (axpy d (-1) it.d)).1 (pn Pr.mu Pr.rho (axpy d (-1) it.d)).2 junk fun _ => 0
  refine ⟨y, fun r => ?_, a2⟩
  simp only [forceUpdate, baseSt, g1 r, Option.bind_eq_bind, Option.bind_some, a1 r]

/-- Parts of arrays and of vectors exist for every array and every vector. -/
theorem holds_self (q : Part N P) (X : ℕ → ℝ) : Holds q X fun r k => X (q.off r + k) := fun _ _ _ => rfl

theorem holdsV_self (x : RVec ℝ n) : HoldsV p x fun r k => if h : p.off r + k < n then x ⟨p.off r + k, h⟩ else 0 := by
  intro r i
  have := (p.idx r i).isLt
  simp only [Part.idx] at this
  simp only [dif_pos this]
  rfl

end Hiop.FrMpi

/-! ## Instances -/

namespace Hiop.FrMpi

open Hiop.Vec Hiop.Kkt Hiop.QN Hiop.Mpi Hiop.Fr Hiop.Iterate

/-- Three variables on two ranks, one on the first. -/
def exPart : Part 3 2 where
  off i := if i = 0 then 0 else if i = 1 then 1 else 3
  zero := rfl
  last := rfl
  mono := by intro i j h; simp only; split_ifs <;> omega

example : vecDistrib (some exPart.off) 2 (nTot 3 1 2) = some [0, 1, 9] := by
  rw [C83_partition exPart (by norm_num)]
  simp [List.range_succ, frPart, exPart, nTot]

example : vecDistrib none 2 9 = none := C83_partition_refuted 9 le_rfl

/-- A base problem with one equality `x0 + x1 + x2` on two ranks, whose ranks read their parts of the point. -/
def exCd (x : RVec ℝ 3) : RVec ℝ 1 × RVec ℝ 0 := (fun _ => x 0 + x 1 + x 2, Fin.elim0)

def exBase (pts : Fin 2 → ℕ → ℝ) (_ : Fin 2) : RVec ℝ 1 × RVec ℝ 0 := (fun _ => pts 0 0 + pts 1 0 + pts 1 1, Fin.elim0)

theorem exBase_ok : BaseOk exPart exCd exBase := by
  intro x pts h r
  have e0 : pts 0 0 = x 0 := h 0 ⟨0, by simp [Part.len, exPart]⟩
  have e1 : pts 1 0 = x 1 := h 1 ⟨0, by simp [Part.len, exPart]⟩
  have e2 : pts 1 1 = x 2 := h 1 ⟨1, by simp [Part.len, exPart]⟩
  simp only [exBase, exCd, e0, e1, e2]

noncomputable example (X junk : ℕ → ℝ) (B : Base 3 1 0) (hB : ∀ x, B.cd x = some (exCd x)) :=
  C83_constraints exPart (by norm_num) B 0 0 (1 : Fin 2) rfl (base := exBase)
    (by simpa only [hB, Option.getD_some] using exBase_ok) X junk (holds_self _ X)

noncomputable example (B : Base 3 1 2) (Pr : Prob 3 2) (X : ℕ → ℝ) (junk : Fin 2 → ℕ → ℝ) :=
  C83_objective exPart (by norm_num) B Pr X junk (holds_self _ X) (holdsV_self _ _) (holdsV_self _ _)

noncomputable example (Pr : Prob 3 2) (X : ℕ → ℝ) (junk : Fin 2 → ℕ → ℝ) :=
  C83_gradient (mc := 1) exPart (by norm_num) Pr X junk (holds_self _ X) (holdsV_self _ _) (holdsV_self _ _)

noncomputable example (B : Base 3 1 2) := C83_bounds exPart (by norm_num) B (holdsV_self _ _) (holdsV_self _ _)

noncomputable example (Jc Jd : ℕ → ℕ → ℝ) (r : Fin 2) :=
  C83_jacobian (mc := 1) (m := 2) exPart (by norm_num) Jc Jd r (fun i k => Jc i (exPart.off r + k))
    (fun i k => Jd i (exPart.off r + k)) (fun _ _ _ _ => rfl) fun _ _ _ _ => rfl

noncomputable example (B : Base 3 1 2) (Pr : Prob 3 2) (c : RVec ℝ 1) (d : RVec ℝ 2) (it : It ℝ 3 1 2) :=
  C83_warm_start exPart (by norm_num) B Pr c d it (holdsV_self _ _) (holdsV_self _ _) (holdsV_self _ _)

noncomputable example (B : Base 3 1 2) (Pr : Prob 3 2) (c : RVec ℝ 1) (d : RVec ℝ 2) (it : It ℝ 3 1 2) (X : ℕ → ℝ)
    (junk : Fin 2 → ℕ → ℝ) :=
  C83_force exPart (by norm_num) B Pr c d it junk junk junk X junk (holds_self _ X)

example : ∃ k < (frPart exPart (by norm_num) 1 0).len 1, varsType exPart 1 k = none :=
  C83_var_kinds_refuted exPart (by norm_num) 1 rfl (by norm_num)

example : ∃ k < 1 + 2, consType 2 k = none := C83_cons_kinds_refuted (mc := 1) (by norm_num)

end Hiop.FrMpi
