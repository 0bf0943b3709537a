import Verif.RemMpi.Model
import Verif.Mpi.Props
import Verif.Nlp.Remover

/-!
# C84: removing fixed variables on several ranks is removing them on one rank

The specification is the removal on one rank of the whole problem (`Verif/Nlp/Model`, proved right in C14): `scatter p x r`
is the part of `x` that rank `r` holds in the user's distribution `p`.
-/

set_option linter.unusedSectionVars false

namespace Hiop.RemMpi

open Hiop.Vec Hiop.Nlp Hiop.Mpi Hiop.Loop

variable {K : Type*} [Field K] [LinearOrder K] [IsStrictOrderedRing K] {N P : ℕ}

/-! ## Specification -/

/-- The part of a reduced vector that belongs to rank `r` in the distribution `q` of the reduced problem, as an array of
length `w`. -/
def part {M w : ℕ} {A : Type*} (q : Part M P) (r : Fin P) (h : w = q.len r) (y : Fin M → A) : Fin w → A :=
  fun i => y (q.idx r (Fin.cast h i))

/-! ## Counting -/

theorem count_idx (p : Part N P) (q : Fin N → Prop) [DecidablePred q] (r : Fin P) :
    ∀ i, i ≤ p.len r →
      countBelow q (p.off r + i) = countBelow q (p.off r) + countBelow (fun j => q (p.idx r j)) i := by
  intro i
  induction i with
  | zero => simp
  | succ i ih =>
    intro h
    have hi : i < p.len r := by omega
    have h1 := countBelow_succ q (p.idx r ⟨i, hi⟩)
    have h2 := countBelow_succ (fun j => q (p.idx r j)) ⟨i, hi⟩
    have e : ((p.idx r ⟨i, hi⟩ : Fin N) : ℕ) = p.off r + i := rfl
    rw [e] at h1
    simp only at h2
    rw [← Nat.add_assoc, h1, ih (by omega), h2]
    omega

/-- The variables kept, counted up to the places where the parts begin, form a distribution. -/
def reduced (p : Part N P) (q : Fin N → Prop) [DecidablePred q] (M : ℕ) (hM : M = countBelow q N) : Part M P where
  off := fun k => countBelow q (p.off k)
  zero := by simp [p.zero]
  last := by rw [p.last, hM]
  mono := fun _ _ h => countBelow_mono q (p.mono h)

theorem reduced_len (p : Part N P) (q : Fin N → Prop) [DecidablePred q] {M : ℕ} (hM : M = countBelow q N)
    (r : Fin P) : (reduced p q M hM).len r = countBelow (fun j => q (p.idx r j)) (p.len r) := by
  have h := count_idx p q r (p.len r) le_rfl
  have e : p.off r + p.len r = p.off (r + 1) := by
    have := p.mono (Nat.le_succ (r : ℕ))
    simp only [Nat.succ_eq_add_one] at this
    unfold Part.len; omega
  rw [e] at h
  show countBelow q (p.off (r + 1)) - countBelow q (p.off r) = _
  omega

section

variable {tol : K} {xl xu junk : RVec K N} {p : Part N P} {nF : ℕ} {R : Remover K N}

/-- The distribution of the reduced problem. -/
def rsPart (p : Part N P) (h : mkRemover tol xl xu nF = some R) : Part (N - R.nFixed) P :=
  reduced p (fun j => ¬ Close tol xl xu j) _ (mkRemover_spec h).2.2.2

theorem local_len (h : mkRemover tol xl xu nF = some R) {r : Fin P} {nL : ℕ} {S : Remover K (p.len r)}
    (hS : mkRemover tol (scatter p xl r) (scatter p xu r) nL = some S) :
    p.len r - S.nFixed = (rsPart p h).len r := by
  rw [(mkRemover_spec hS).2.2.2]
  exact (reduced_len p (fun j => ¬ Close tol xl xu j) (mkRemover_spec h).2.2.2 r).symm

theorem idx_count (h : mkRemover tol xl xu nF = some R) (r : Fin P) (i : Fin (p.len r)) :
    countBelow (fun j => ¬ Close tol xl xu j) (p.idx r i) =
      (rsPart p h).off r + countBelow (fun j => ¬ Close tol (scatter p xl r) (scatter p xu r) j) i :=
  count_idx p (fun j => ¬ Close tol xl xu j) r i i.isLt.le

theorem expand_part (h : mkRemover tol xl xu nF = some R) {r : Fin P} {nL : ℕ} {S : Remover K (p.len r)}
    (hS : mkRemover tol (scatter p xl r) (scatter p xu r) nL = some S)
    (y : RVec K (N - R.nFixed)) (buf : RVec K N) (bufr : RVec K (p.len r)) :
    ∃ x, R.invVec y buf = some x ∧
      S.invVec (part (rsPart p h) r (local_len h hS) y) bufr = some (scatter p x r) := by
  obtain ⟨x, h1, h2, h3⟩ := invVec_pointwise h y buf
  obtain ⟨z, g1, g2, g3⟩ := invVec_pointwise hS (part (rsPart p h) r (local_len h hS) y) bufr
  refine ⟨x, h1, ?_⟩
  rw [g1]
  congr 1
  funext i
  by_cases hc : Close tol xl xu (p.idx r i)
  · rw [g2 i hc]
    exact (h2 _ hc).symm
  · have hb := countBelow_lt (fun j => ¬ Close tol xl xu j) (i := p.idx r i) hc (p.idx r i).isLt
    rw [← (mkRemover_spec h).2.2.2] at hb
    have hl := countBelow_lt (fun j => ¬ Close tol (scatter p xl r) (scatter p xu r) j) (i := i) hc i.isLt
    rw [← (mkRemover_spec hS).2.2.2] at hl
    have e1 := h3 _ hc hb
    have e2 := g3 i hc hl
    rw [← e2]
    show part (rsPart p h) r (local_len h hS) y ⟨_, hl⟩ = x (p.idx r i)
    rw [← e1]
    show y _ = y _
    congr 1
    apply Fin.ext
    exact (idx_count h r i).symm

theorem restrict_part (h : mkRemover tol xl xu nF = some R) {r : Fin P} {nL : ℕ} {S : Remover K (p.len r)}
    (hS : mkRemover tol (scatter p xl r) (scatter p xu r) nL = some S)
    (x : RVec K N) (buf : RVec K (N - R.nFixed)) (bufr : RVec K (p.len r - S.nFixed)) :
    ∃ y, R.toVec x buf = some y ∧
      S.toVec (scatter p x r) bufr = some (part (rsPart p h) r (local_len h hS) y) := by
  obtain ⟨y, h1, h2⟩ := toVec_pointwise h x buf
  obtain ⟨z, g1, g2⟩ := toVec_pointwise hS (scatter p x r) bufr
  refine ⟨y, h1, ?_⟩
  rw [g1]
  congr 1
  funext c
  have hc : (c : ℕ) < countBelow (fun j => ¬ Close tol (scatter p xl r) (scatter p xu r) j) (p.len r) := by
    rw [← (mkRemover_spec hS).2.2.2]; exact c.isLt
  obtain ⟨i, hi, -, hci⟩ := countBelow_surj _ _ _ le_rfl hc
  have hi' : ¬ Close tol xl xu (p.idx r i) := hi
  have hb := countBelow_lt (fun j => ¬ Close tol xl xu j) (i := p.idx r i) hi' (p.idx r i).isLt
  rw [← (mkRemover_spec h).2.2.2] at hb
  have e1 := h2 _ hi' hb
  have hw : countBelow (fun j => ¬ Close tol (scatter p xl r) (scatter p xu r) j) i < p.len r - S.nFixed := by
    rw [hci]; exact c.isLt
  have e2 := g2 i hi hw
  have e3 : (⟨_, hw⟩ : Fin (p.len r - S.nFixed)) = c := Fin.ext hci
  rw [e3] at e2
  rw [e2]
  show x (p.idx r i) = _
  rw [← e1]
  show y _ = y _
  congr 1
  apply Fin.ext
  show countBelow _ _ = (rsPart p h).off r + (c : ℕ)
  rw [← hci]
  exact idx_count h r i

end

/-! ## Theorems -/

theorem card_local (p : Part N P) (q : Fin N → Prop) [DecidablePred q] :
    ∑ r : Fin P, (Finset.univ.filter fun i : Fin (p.len r) => q (p.idx r i)).card = (Finset.univ.filter q).card := by
  simp only [Finset.card_filter]
  exact sum_scatter p fun j => if q j then 1 else 0

theorem fixedOn_eq {len : ℕ} (tol : K) (xl xu junk : RVec K len) :
    fixedOn tol xl xu junk = (Finset.univ.filter (Fixed tol xl xu)).card :=
  (C12_bounds_classified tol xl xu junk junk).2.2.2.2.2

theorem fixed_card_le {len : ℕ} (tol : K) (xl xu : RVec K len) :
    (Finset.univ.filter (Fixed tol xl xu)).card ≤ (Finset.univ.filter (Close tol xl xu)).card :=
  Finset.card_le_card fun i hi => by
    simp only [Finset.mem_filter, Finset.mem_univ, true_and] at hi ⊢
    exact hi.2

/-- The removal can be set up on all ranks exactly if it can be set up on one rank, for every distribution given by the
user: the assertion of one rank fails if and only if that of the one-rank run does. -/
theorem C84_setup (p : Part N P) (tol : K) (xl xu junk : RVec K N)
    (out : ∀ r : Fin P, Option (RankRem K (p.len r))) (h : setupAll p tol true xl xu junk out) :
    (∀ r, (out r).isSome) ↔ (mkRemover tol xl xu (fixedOn tol xl xu junk)).isSome := by
  obtain ⟨nF, -, ho⟩ := h
  have e : ∀ r, (out r).isSome ↔
      fixedOn tol (scatter p xl r) (scatter p xu r) (scatter p junk r) =
        (Finset.univ.filter (Close tol (scatter p xl r) (scatter p xu r))).card := by
    intro r
    rw [ho r, ← C14_setup_iff]
    simp only [setupRank, setFSDistrib, if_true, Option.bind_some]
    cases mkRemover tol (scatter p xl r) (scatter p xu r)
      (fixedOn tol (scatter p xl r) (scatter p xu r) (scatter p junk r)) <;> simp
  rw [C14_setup_iff, fixedOn_eq]
  simp only [e, fixedOn_eq]
  have h1 := card_local p (Fixed tol xl xu)
  have h2 := card_local p (Close tol xl xu)
  constructor
  · intro hr
    rw [← h1, ← h2]
    exact Finset.sum_congr rfl fun r _ => hr r
  · intro hg r
    rw [← h1, ← h2] at hg
    exact (Finset.sum_eq_sum_iff_of_le fun r _ => fixed_card_le tol (scatter p xl r) (scatter p xu r)).1 hg r
      (Finset.mem_univ r)

/-- The reduced problem has the same number of variables on every rank, that of the one-rank run; the ranks hold the
same distribution of it; this is a distribution of all its variables; and the vectors created with it have on each rank
the number of entries its remover writes and reads. -/
theorem C84_distribution (p : Part N P) (tol : K) (xl xu junk : RVec K N)
    (out : ∀ r : Fin P, Option (RankRem K (p.len r))) (h : setupAll p tol true xl xu junk out)
    (R : Remover K N) (hR : mkRemover tol xl xu (fixedOn tol xl xu junk) = some R) :
    ∀ r, ∃ s, out r = some s ∧ s.nVars = ((N - R.nFixed : ℕ) : ℤ) ∧
      (∀ k, k ≤ P → s.dist k = ((rsPart p hR).off k : ℤ)) ∧ s.localSize r = ((p.len r - s.rem.nFixed : ℕ) : ℤ) := by
  have hs := (C84_setup p tol xl xu junk out h).2 (by rw [hR]; rfl)
  intro r
  obtain ⟨s, hs'⟩ := Option.isSome_iff_exists.1 (hs r)
  refine ⟨s, hs', ?_⟩
  obtain ⟨nF, ha, ho⟩ := h
  rw [allreduce_sum] at ha
  have hcl := (C14_setup_iff tol xl xu (fixedOn tol xl xu junk)).1 (by rw [hR]; rfl)
  have hcnt : ∀ r : Fin P, fixedOn tol (scatter p xl r) (scatter p xu r) (scatter p junk r) =
      (Finset.univ.filter fun i : Fin (p.len r) => Close tol xl xu (p.idx r i)).card := by
    intro r
    have := (hs r)
    rw [ho r] at this
    simp only [setupRank, setFSDistrib, if_true, Option.bind_some] at this
    have h2 : (mkRemover tol (scatter p xl r) (scatter p xu r)
        (fixedOn tol (scatter p xl r) (scatter p xu r) (scatter p junk r))).isSome := by
      cases hm : mkRemover tol (scatter p xl r) (scatter p xu r)
        (fixedOn tol (scatter p xl r) (scatter p xu r) (scatter p junk r)) with
      | none => rw [hm] at this; simp at this
      | some _ => rfl
    exact (C14_setup_iff _ _ _ _).1 h2
  rw [ho r] at hs'
  simp only [setupRank, setFSDistrib, if_true, Option.bind_some] at hs'
  obtain ⟨S, hS, hs'⟩ := Option.bind_eq_some_iff.1 hs'
  obtain rfl := Option.some.inj hs'
  have hnF : nF r = R.nFixed := by
    rw [ha r, (mkRemover_spec hR).2.1, hcl, ← card_local p (Close tol xl xu)]
    exact Finset.sum_congr rfl fun r _ => hcnt r
  have hle : R.nFixed ≤ N := by
    rw [(mkRemover_spec hR).2.1, hcl]
    exact (Finset.card_le_univ _).trans (by simp)
  have hd : ∀ k, k ≤ P → rsOffsets p.off (fun k => if h : k < P then
      fixedOn tol (scatter p xl ⟨k, h⟩) (scatter p xu ⟨k, h⟩) (scatter p junk ⟨k, h⟩) else 0) k =
        ((rsPart p hR).off k : ℤ) := by
    intro k hk
    rw [C34_reduced_offsets (p := p) (Close tol xl xu) _ (fun r => by simp only [r.isLt, dif_pos]; exact hcnt r) k hk]
    rfl
  refine ⟨?_, hd, ?_⟩
  · show (N : ℤ) - (nF r : ℤ) = _
    rw [hnF]; omega
  · show rsOffsets _ _ _ - rsOffsets _ _ _ = _
    rw [hd _ r.isLt, hd _ r.isLt.le, local_len hR hS]
    have h3 : (rsPart p hR).off r ≤ (rsPart p hR).off (r + 1) := (rsPart p hR).mono (Nat.le_succ (r : ℕ))
    show (((rsPart p hR).off (r + 1) : ℕ) : ℤ) - ((rsPart p hR).off r : ℕ) = _
    unfold Part.len
    omega

section

variable {tol : K} {xl xu : RVec K N} {nF : ℕ} {R : Remover K N}

/-- A point of the solver, expanded on every rank from the rank's part, is on every rank the part of the point the
one-rank run hands to the user, whatever the buffers held: with every removed variable at its fixed value. -/
theorem C84_expand (p : Part N P) (h : mkRemover tol xl xu nF = some R) (r : Fin P) (nL : ℕ) (S : Remover K (p.len r))
    (hS : mkRemover tol (scatter p xl r) (scatter p xu r) nL = some S) (y : RVec K (N - R.nFixed)) (buf : RVec K N)
    (bufr : RVec K (p.len r)) :
    ∃ x, R.invVec y buf = some x ∧
      S.invVec (part (rsPart p h) r (local_len h hS) y) bufr = some (scatter p x r) :=
  expand_part h hS y buf bufr

/-- Vectors of the user (bounds, gradients, starting points), restricted on every rank, are the parts of the vector
restricted on one rank. -/
theorem C84_restrict (p : Part N P) (h : mkRemover tol xl xu nF = some R) (r : Fin P) (nL : ℕ) (S : Remover K (p.len r))
    (hS : mkRemover tol (scatter p xl r) (scatter p xu r) nL = some S) (x : RVec K N) (buf : RVec K (N - R.nFixed))
    (bufr : RVec K (p.len r - S.nFixed)) :
    ∃ y, R.toVec x buf = some y ∧ S.toVec (scatter p x r) bufr = some (part (rsPart p h) r (local_len h hS) y) :=
  restrict_part h hS x buf bufr

theorem row_of_invMatrix {n : ℕ} {xl xu : RVec K n} {nF : ℕ} {R : Remover K n} (h : mkRemover tol xl xu nF = some R)
    (m : ℕ) (Mfs Mrs0 : ℕ → K) (i : ℕ) (hi : i < m) (buf : RVec K (n - R.nFixed)) :
    R.toVec (fun j => Mfs (i * n + j)) buf =
      some (fun c : Fin (n - R.nFixed) => R.invMatrix m Mfs Mrs0 (i * (n - R.nFixed) + c)) := by
  obtain ⟨y, h1, h2⟩ := C14_restrict h (fun j => Mfs (i * n + j)) buf
  have h3 := (C14_jacobian_columns h m Mfs Mrs0).1 i hi
  rw [h1]
  congr 1
  exact List.ofFn_injective (h2.trans h3.symm)

/-- The user's Jacobian `J`, of which rank `r` holds its columns, reduced on every rank: the entries of rank `r` are the
entries of the Jacobian reduced on one rank, in the columns the new distribution gives to `r`. -/
theorem C84_jacobian (p : Part N P) (h : mkRemover tol xl xu nF = some R) (r : Fin P) (nL : ℕ) (S : Remover K (p.len r))
    (hS : mkRemover tol (scatter p xl r) (scatter p xu r) nL = some S) (m : ℕ) (J : ℕ → Fin N → K)
    (M Mr M0 Mr0 : ℕ → K) (hM : ∀ i (j : Fin N), M (i * N + j) = J i j)
    (hMr : ∀ i (j : Fin (p.len r)), Mr (i * p.len r + j) = J i (p.idx r j)) (i : ℕ) (hi : i < m)
    (c : Fin (p.len r - S.nFixed)) :
    S.invMatrix m Mr Mr0 (i * (p.len r - S.nFixed) + c) =
      R.invMatrix m M M0 (i * (N - R.nFixed) + ((rsPart p h).off r + c)) := by
  obtain ⟨y, h1, h2⟩ := restrict_part h hS (fun j => J i j) (fun _ => 0) (fun _ => 0)
  have g1 := row_of_invMatrix h m M M0 i hi (fun _ => 0)
  have g2 := row_of_invMatrix hS m Mr Mr0 i hi (fun _ => 0)
  simp only [hM] at g1
  simp only [hMr] at g2
  have e1 := Option.some.inj (h1.symm.trans g1)
  have e2 := Option.some.inj (h2.symm.trans g2)
  have := congrFun e2 c
  rw [← this, e1]
  rfl

/-- Over all sequences of evaluations, with any flags `new_x` (the same on all ranks): the points handed to the user on
the ranks are the parts of those handed over in the one-rank run. -/
theorem C84_points (p : Part N P) (h : mkRemover tol xl xu nF = some R) (r : Fin P) (nL : ℕ) (S : Remover K (p.len r))
    (hS : mkRemover tol (scatter p xl r) (scatter p xu r) nL = some S) (cs : List (RVec K (N - R.nFixed) × Bool))
    (cache : RVec K N) :
    ∃ l, points R cache cs = some l ∧
      points S (scatter p cache r) (cs.map fun c => (part (rsPart p h) r (local_len h hS) c.1, c.2)) =
        some (l.map fun x => scatter p x r) := by
  induction cs generalizing cache with
  | nil => exact ⟨[], rfl, rfl⟩
  | cons c cs ih =>
    obtain ⟨y, b⟩ := c
    obtain ⟨x, h1, h2⟩ : ∃ x, R.invX cache y b = some x ∧
        S.invX (scatter p cache r) (part (rsPart p h) r (local_len h hS) y) b = some (scatter p x r) := by
      cases b with
      | true => exact expand_part h hS y cache _
      | false => exact ⟨cache, rfl, rfl⟩
    obtain ⟨l, h3, h4⟩ := ih x
    exact ⟨x :: l, by simp only [points, h1, Option.bind_some, h3, Option.map_some],
      by simp only [List.map_cons, points, h2, Option.bind_some, h4, Option.map_some]⟩

end

/-- Not so for a problem whose interface gives no distribution (the default): in a build with MPI the removal stops at
the assertion on every rank, also when there is only one, while the build without MPI removes the variables. -/
theorem C84_no_distribution_refuted (p : Part N P) (tol : K) (xl xu junk : RVec K N)
    (out : ∀ r : Fin P, Option (RankRem K (p.len r))) (h : setupAll p tol false xl xu junk out) (r : Fin P) :
    out r = none := by
  obtain ⟨nF, -, ho⟩ := h
  rw [ho r]
  simp [setupRank, setFSDistrib]

/-- Without a distribution every rank holds all variables, and the reduced counters (fixed variables, lower bounds, upper
bounds, both) are `P` times those of the problem: they enter the scaling of the optimality error. -/
theorem C84_replicated_counts_refuted (tol : K) (xl xu junk : RVec K N) (out : Fin P → ℕ × ℕ × ℕ × ℕ)
    (h : countsD (fun _ : Fin P =>
      let b := processBounds tol xl xu junk junk
      (b.nFixed, b.nLow, b.nUpp, b.nLu)) out) (r : Fin P) :
    let b := processBounds tol xl xu junk junk
    out r = (P * b.nFixed, P * b.nLow, P * b.nUpp, P * b.nLu) := by
  obtain ⟨g, hg, a, ha, ho⟩ := h
  rw [allreduce_sum] at hg ha
  rw [ho r, hg r, ha r]
  simp [Finset.sum_const]

/-! ## Non-vacuity -/

/-- Five variables on three ranks, the second of which holds none; the variables 1 and 4 are fixed. -/
def demoPart : Part 5 3 where
  off := fun k => if k = 0 then 0 else if k = 1 then 2 else if k = 2 then 2 else 5
  zero := rfl
  last := rfl
  mono := monotone_nat_of_le_succ fun k => by
    rcases k with _ | _ | _ | k <;> simp

def demoL : RVec ℚ 5 := ![0, 3, 0, 0, 7]
def demoU : RVec ℚ 5 := ![1, 3, 9, 9, 7]

example : (mkRemover (1 / 100 : ℚ) demoL demoU (fixedOn (1 / 100) demoL demoU fun _ => 0)).isSome = true ∧
    fixedOn (1 / 100) demoL demoU (fun _ => 0) = 2 := by
  constructor <;> decide +kernel

/-- The three ranks keep 1, 0 and 2 variables. -/
example : (List.range 4).map (rsOffsets demoPart.off fun k =>
    if h : k < 3 then fixedOn (1 / 100) (scatter demoPart demoL ⟨k, h⟩) (scatter demoPart demoU ⟨k, h⟩) (fun _ => 0) else 0) =
    [0, 1, 1, 3] := by decide +kernel

/-- A run on the three ranks exists. -/
example : ∃ out, setupAll demoPart (1 / 100 : ℚ) true demoL demoU (fun _ => 0) out := by
  refine ⟨_, fun _ => ∑ r, fixedOn (1 / 100 : ℚ) (scatter demoPart demoL r) (scatter demoPart demoU r)
    (scatter demoPart (fun _ => 0) r), (allreduce_sum _ _).2 fun _ => rfl, fun _ => rfl⟩

/-- The point the last rank hands to the user for the reduced values 5, 6. -/
example : ((mkRemover (1 / 100 : ℚ) (scatter demoPart demoL 2) (scatter demoPart demoU 2) 1).bind fun S =>
    (S.invVec (fun i => if i.val = 0 then 5 else 6) (fun _ => 0)).map List.ofFn) = some [5, 6, 7] := by decide +kernel

end Hiop.RemMpi
