import Verif.PriDec.Invariant
import Mathlib.Tactic.Ring
import Mathlib.Data.Prod.Lex
import Mathlib.Order.WellFounded

/-!
# Primal decomposition protocol: progress under fair schedules
-/

set_option linter.unusedSectionVars false

namespace Hiop.PriDec

variable {w : ℕ} {M : Type} [AddCommGroup M]

/-- Moves a message still has to make. -/
def Msg.wt {α : Type} : Msg α → ℕ
  | .posted => 3
  | .sent _ => 2
  | .here _ => 1

/-- Actions rank `r` and its messages still have to make for the outstanding index. -/
def rankW (s : St w M) (r : Fin w) : ℕ :=
  ((s.inbox r).map fun m => m.wt + 4).sum + (match s.wpc r with | .eval _ => 4 | _ => 0) +
    ((s.outbox r).map Msg.wt).sum

/-- Potential of rank 0's control state. -/
def pot (w : ℕ) : MPC → ℕ
  | .start => 19 * w + 7
  | .initSend r => 9 * (w - r) + 10 * w + 6
  | .initWait r => 9 * (w - (r + 1)) + 10 * w + 7
  | .initRecv r => (w - r) + 9 * w + 4
  | .top => 9 * w + 3
  | .sweep _ => 9 * w + 3
  | .waitIdx _ => 9 * w + 3
  | .endSweep => 9 * w + 3
  | .finSend r => 8 * (w - r) + w + 2
  | .finWait r => (w - r) + 1
  | .done => 0
  | .abort => 0

/-- Work left in the iteration. -/
def mu (c : Cfg M) (s : St w M) : ℕ := 10 * (c.S - s.idx) + ∑ r, rankW s r + pot w s.pc

/-- How far rank 0's polling is from a rank it still waits for, or from leaving the loop. -/
def dist (c : Cfg M) (s : St w M) : ℕ :=
  match s.pc with
  | .top => if s.last = false ∧ c.S < s.idx then 0
            else if ∃ q, s.finish q = false then w + 1 else 2 * w + 11
  | .sweep r => (w - r) + if ∃ q : Fin w, r ≤ (q : ℕ) ∧ s.finish q = false then 0 else w + 10
  | .endSweep => w + 5
  | _ => 0

theorem rankW_congr {s s' : St w M} {q : Fin w} (h1 : s'.inbox q = s.inbox q)
    (h2 : s'.outbox q = s.outbox q) (h3 : s'.wpc q = s.wpc q) : rankW s' q = rankW s q := by
  simp only [rankW, h1, h2, h3]

/-- Only rank `r`'s weight changes. -/
theorem sum_rankW {s s' : St w M} (r : Fin w)
    (h : ∀ q, q ≠ r → s'.inbox q = s.inbox q ∧ s'.outbox q = s.outbox q ∧ s'.wpc q = s.wpc q) :
    ∑ q, rankW s' q + rankW s r = ∑ q, rankW s q + rankW s' r := by
  rw [← Finset.add_sum_erase _ _ (Finset.mem_univ r),
    ← Finset.add_sum_erase Finset.univ (fun q => rankW s q) (Finset.mem_univ r)]
  have : ∑ q ∈ Finset.univ.erase r, rankW s' q = ∑ q ∈ Finset.univ.erase r, rankW s q :=
    Finset.sum_congr rfl fun q hq => by
      obtain ⟨a, b, d⟩ := h q (Finset.ne_of_mem_erase hq)
      exact rankW_congr a b d
  rw [this]
  ring

/-- Every possible action of an evaluator or of the network is progress. -/
theorem mu_other {c : Cfg M} {s s' : St w M} {a : Act w} (ha : a ≠ .master)
    (hs : act c s a = some s') : mu c s' < mu c s := by
  have key : ∀ r : Fin w, s'.pc = s.pc → s'.idx = s.idx →
      (∀ q, q ≠ r → s'.inbox q = s.inbox q ∧ s'.outbox q = s.outbox q ∧ s'.wpc q = s.wpc q) →
      rankW s' r < rankW s r → mu c s' < mu c s := by
    intro r h1 h2 h3 h4
    have := sum_rankW r h3
    unfold mu
    rw [h1, h2]
    omega
  cases a with
  | master => exact (ha rfl).elim
  | worker r =>
    simp only [act, worker] at hs
    split at hs
    · rename_i hw
      split at hs
      · rename_i i t hin
        obtain rfl := Option.some.inj hs
        refine key r rfl rfl (fun q hq => by simp [Function.update_of_ne hq]) ?_
        simp [rankW, hw, hin, Msg.wt]
        omega
      · cases hs
    · rename_i i hw
      split at hs
      · obtain rfl := Option.some.inj hs
        refine key r rfl rfl (fun q hq => by simp [Function.update_of_ne hq]) ?_
        simp [rankW, hw, Msg.wt]
        omega
      · cases hs
    · rename_i hw
      split at hs
      · rename_i i t hin
        obtain rfl := Option.some.inj hs
        refine key r rfl rfl (fun q hq => by simp [Function.update_of_ne hq]) ?_
        by_cases hi : i = -1
        · simp [rankW, hw, hin, Msg.wt, hi]
        · simp [rankW, hw, hin, Msg.wt, hi]
          omega
      · cases hs
    · cases hs
  | moveIdx r =>
    simp only [act, moveIdx] at hs
    split at hs
    · rename_i t hin
      split at hs
      · obtain rfl := Option.some.inj hs
        refine key r rfl rfl (fun q hq => by simp [Function.update_of_ne hq]) ?_
        simp [rankW, hin, Msg.wt]
      · cases hs
    · rename_i v t hin
      obtain rfl := Option.some.inj hs
      refine key r rfl rfl (fun q hq => by simp [Function.update_of_ne hq]) ?_
      simp [rankW, hin, Msg.wt]
    · cases hs
  | moveRes r =>
    simp only [act, moveRes] at hs
    split at hs
    · rename_i t hin
      split at hs
      · obtain rfl := Option.some.inj hs
        refine key r rfl rfl (fun q hq => by simp [Function.update_of_ne hq]) ?_
        simp [rankW, hin, Msg.wt]
      · cases hs
    · rename_i v t hin
      obtain rfl := Option.some.inj hs
      refine key r rfl rfl (fun q hq => by simp [Function.update_of_ne hq]) ?_
      simp [rankW, hin, Msg.wt]
    · cases hs

/-- Two states that differ only in rank 0's control. -/
structure SameNet (s s' : St w M) : Prop where
  inbox : s'.inbox = s.inbox
  outbox : s'.outbox = s.outbox
  wpc : s'.wpc = s.wpc
  rreq : s'.rreq = s.rreq
  idx : s'.idx = s.idx
  finish : s'.finish = s.finish

theorem SameNet.enabled {c : Cfg M} {s s' : St w M} (h : SameNet s s') {a : Act w}
    (ha : a ≠ .master) (he : (act c s a).isSome) : (act c s' a).isSome := by
  cases a with
  | master => exact (ha rfl).elim
  | worker r =>
    simp only [act, worker, wWaitable, h.inbox, h.outbox, h.wpc] at he ⊢
    split <;> simp_all
    all_goals (split <;> simp_all)
  | moveIdx r =>
    simp only [act, moveIdx, h.inbox, h.wpc] at he ⊢
    split <;> simp_all
  | moveRes r =>
    simp only [act, moveRes, h.outbox, h.rreq] at he ⊢
    split <;> simp_all

theorem SameNet.rankSum {s s' : St w M} (h : SameNet s s') :
    ∑ r, rankW s' r = ∑ r, rankW s r :=
  Finset.sum_congr rfl fun q _ => rankW_congr (by rw [h.inbox]) (by rw [h.outbox]) (by rw [h.wpc])

/-- An action of rank 0 is progress, or an idle polling move. -/
theorem mu_master {c : Cfg M} {s s' : St w M} (hI : Inv c s) (hs : master c s = some s') :
    mu c s' < mu c s ∨ (mu c s' = mu c s ∧ SameNet s s') := by
  obtain ⟨ph, sent, hP, -, hM⟩ := hI
  unfold MasterOk at hM
  have post : ∀ (r : Fin w) (s'' : St w M) (i : ℤ), s.inbox r = [] →
      s''.inbox = (postIdx s r i).inbox → s''.outbox = s.outbox → s''.wpc = s.wpc →
      ∑ q, rankW s'' q = ∑ q, rankW s q + 7 := by
    intro r s'' i hin h1 h2 h3
    have := sum_rankW (s := s) (s' := s'') r (fun q hq => by
      rw [h1, h2, h3]; simp [postIdx, Function.update_of_ne hq])
    have h7 : rankW s'' r = rankW s r + 7 := by
      simp only [rankW, h1, h2, h3]
      simp [postIdx, hin, Msg.wt]
      omega
    omega
  unfold master at hs
  cases hpc : s.pc with
  | start =>
    simp only [hpc] at hs
    split at hs <;> obtain rfl := Option.some.inj hs <;>
      refine Or.inl ?_ <;> simp only [mu, hpc, pot, rankW] <;> omega
  | initSend r =>
    simp only [hpc] at hs hM
    obtain ⟨hle, hrw, hi, hsent, hk, hr⟩ := hM
    split at hs
    · rename_i hlt
      rw [if_pos (show s.idx < c.S by omega)] at hs
      obtain rfl := Option.some.inj hs
      have hin : s.inbox ⟨r, hlt⟩ = [] := by
        have h1 := hk ⟨r, hlt⟩
        have h2 := hP ⟨r, hlt⟩
        simp only [lt_irrefl, if_false] at h1
        cases hp : ph ⟨r, hlt⟩ <;> rw [hp] at h1 h2 <;> simp_all [PhOk, Ph.cls]
      have := post ⟨r, hlt⟩ { postIdx s ⟨r, hlt⟩ s.idx with pc := .initWait r } s.idx hin rfl rfl rfl
      refine Or.inl ?_
      unfold mu
      rw [this]
      simp only [hpc, pot, postIdx]
      omega
    · obtain rfl := Option.some.inj hs
      refine Or.inl ?_
      simp only [mu, hpc, pot, rankW]
      omega
  | initWait r =>
    simp only [hpc] at hs hM
    obtain ⟨hle, hrw, hi, hsent, hk, hr⟩ := hM
    rw [dif_pos hrw] at hs
    split at hs
    · obtain rfl := Option.some.inj hs
      refine Or.inl ?_
      simp only [mu, hpc, pot, rankW]
      omega
    · cases hs
  | initRecv r =>
    simp only [hpc] at hs hM
    split at hs
    · split at hs <;> obtain rfl := Option.some.inj hs <;>
        refine Or.inl ?_ <;> simp only [mu, hpc, pot, rankW] <;> omega
    · obtain rfl := Option.some.inj hs
      refine Or.inl ?_
      simp only [mu, hpc, pot, rankW]
      omega
  | top =>
    simp only [hpc] at hs hM
    split at hs
    · obtain rfl := Option.some.inj hs
      refine Or.inr ⟨?_, rfl, rfl, rfl, rfl, rfl, rfl⟩
      simp only [mu, hpc, pot, rankW]
    · obtain rfl := Option.some.inj hs
      refine Or.inl ?_
      simp only [mu, hpc, pot, rankW]
      omega
  | sweep r =>
    simp only [hpc] at hs hM
    split at hs
    · rename_i hlt
      obtain ⟨hrw, hL, hl1, hl2⟩ := hM
      by_cases hreq : s.rreq ⟨r, hlt⟩ = true
      · have hfin : s.finish ⟨r, hlt⟩ = false := by
          have := hL.req ⟨r, hlt⟩
          rw [hreq] at this
          simpa using this.symm
        by_cases hhere : ∃ v t, s.outbox ⟨r, hlt⟩ = .here v :: t
        · obtain ⟨v, t, ho⟩ := hhere
          have ht : test s ⟨r, hlt⟩ = (true, { s with
              rreq := Function.update s.rreq ⟨r, hlt⟩ false,
              rbuf := Function.update s.rbuf ⟨r, hlt⟩ v,
              outbox := Function.update s.outbox ⟨r, hlt⟩ t }) := by
            simp [test, hreq, ho]
          rw [ht] at hs
          simp only [hfin, and_self, if_true] at hs
          obtain rfl := Option.some.inj hs
          obtain ⟨f1, f2, f3, -⟩ := collect_fields c { s with
              rreq := Function.update s.rreq ⟨r, hlt⟩ false,
              rbuf := Function.update s.rbuf ⟨r, hlt⟩ v,
              outbox := Function.update s.outbox ⟨r, hlt⟩ t } ⟨r, hlt⟩
          generalize hs'' : collect c { s with
              rreq := Function.update s.rreq ⟨r, hlt⟩ false,
              rbuf := Function.update s.rbuf ⟨r, hlt⟩ v,
              outbox := Function.update s.outbox ⟨r, hlt⟩ t } ⟨r, hlt⟩ = s'' at f1 f2 f3 ⊢
          have h1 := sum_rankW (s := s) (s' := s'') ⟨r, hlt⟩ (fun q hq => by
            rw [f1, f2, f3]; simp [Function.update_of_ne hq])
          have h2 : rankW s'' ⟨r, hlt⟩ + 1 = rankW s ⟨r, hlt⟩ := by
            simp only [rankW, f1, f2, f3]
            simp [ho, Msg.wt]
            omega
          have h3 : (s''.idx = s.idx ∨ s''.idx = s.idx + 1) ∧ pot w s''.pc = 9 * w + 3 := by
            rw [← hs'']
            unfold collect
            cases c.loc <;> cases s.last <;> by_cases hi : s.idx < c.S <;> simp [hi, pot]
          refine Or.inl ?_
          unfold mu
          rw [h3.2, hpc]
          have := h3.1
          simp only [pot]
          omega
        · have ht : test s ⟨r, hlt⟩ = (false, s) := by
            unfold test
            rw [if_pos hreq]
            split
            · rename_i v t ho
              exact (hhere ⟨v, t, ho⟩).elim
            · rfl
          rw [ht] at hs
          simp only [Bool.false_eq_true, false_and, if_false] at hs
          obtain rfl := Option.some.inj hs
          refine Or.inr ⟨?_, rfl, rfl, rfl, rfl, rfl, rfl⟩
          simp only [mu, hpc, pot, rankW]
      · have hfin : s.finish ⟨r, hlt⟩ = true := by
          have := hL.req ⟨r, hlt⟩
          simp only [Bool.not_eq_true] at hreq
          rw [hreq] at this
          simpa using this.symm
        have ht : test s ⟨r, hlt⟩ = (true, s) := by
          unfold test
          rw [if_neg hreq]
        rw [ht] at hs
        simp only [hfin, Bool.true_eq_false, and_false, if_false] at hs
        obtain rfl := Option.some.inj hs
        refine Or.inr ⟨?_, rfl, rfl, rfl, rfl, rfl, rfl⟩
        simp only [mu, hpc, pot, rankW]
    · obtain rfl := Option.some.inj hs
      refine Or.inr ⟨?_, rfl, rfl, rfl, rfl, rfl, rfl⟩
      simp only [mu, hpc, pot, rankW]
  | waitIdx r =>
    simp only [hpc] at hs hM
    obtain ⟨hlt, hle, hsent, hi, hlast, hnone, hk, hr⟩ := hM
    rw [dif_pos hlt] at hs
    split at hs
    · have hrq : s.rreq ⟨r, hlt⟩ = false := by rw [hr]; simp
      have hin : s.inbox ⟨r, hlt⟩ = [] := by
        have h1 := hk ⟨r, hlt⟩
        have h2 := hP ⟨r, hlt⟩
        simp only [if_true] at h1
        cases hp : ph ⟨r, hlt⟩ <;> rw [hp] at h1 h2 <;> simp_all [PhOk, Ph.cls]
      rw [if_neg (by simp [postIdx, hrq])] at hs
      obtain rfl := Option.some.inj hs
      refine Or.inl ?_
      unfold mu
      have := post ⟨r, hlt⟩ { postIdx s ⟨r, hlt⟩ s.idx with
        rreq := Function.update s.rreq ⟨r, hlt⟩ true, idx := s.idx + 1, pc := .sweep (r + 1) }
        s.idx hin rfl rfl rfl
      simp only [postIdx] at this
      simp only [postIdx]
      rw [this]
      simp only [hpc, pot]
      omega
    · cases hs
  | endSweep =>
    simp only [hpc] at hs hM
    obtain rfl := Option.some.inj hs
    refine Or.inr ⟨?_, rfl, rfl, rfl, rfl, rfl, rfl⟩
    simp only [mu, hpc, pot, rankW]
  | finSend r =>
    simp only [hpc] at hs hM
    obtain ⟨hrw, hsent, hr, hk⟩ := hM
    split at hs
    · rename_i hlt
      split at hs
      · have hin : s.inbox ⟨r, hlt⟩ = [] := by
          have h1 := hk ⟨r, hlt⟩
          have h2 := hP ⟨r, hlt⟩
          simp only [lt_irrefl, if_false] at h1
          cases hp : ph ⟨r, hlt⟩ <;> rw [hp] at h1 h2 <;> simp_all [PhOk, Ph.cls]
        obtain rfl := Option.some.inj hs
        refine Or.inl ?_
        unfold mu
        have := post ⟨r, hlt⟩ { postIdx s ⟨r, hlt⟩ (-1) with pc := .finSend (r + 1) }
          (-1) hin rfl rfl rfl
        rw [this]
        simp only [hpc, pot, postIdx]
        omega
      · cases hs
    · obtain rfl := Option.some.inj hs
      refine Or.inl ?_
      simp only [mu, hpc, pot, rankW]
      omega
  | finWait r =>
    simp only [hpc] at hs hM
    obtain ⟨hrw, hsent, hr, hk⟩ := hM
    split at hs
    · rename_i hlt
      have ht : test s ⟨r, hlt⟩ = (true, s) := by simp [test, hr]
      rw [ht] at hs
      simp only at hs
      split at hs
      · obtain rfl := Option.some.inj hs
        refine Or.inl ?_
        simp only [mu, hpc, pot, rankW]
        omega
      · cases hs
    · obtain rfl := Option.some.inj hs
      refine Or.inl ?_
      simp only [mu, hpc, pot, rankW]
      omega
  | done => simp only [hpc] at hs; cases hs
  | abort => simp only [hpc] at hs; cases hs

/-- An outstanding index can always move on, unless its result waits at rank 0. -/
theorem active_moves {c : Cfg M} {s : St w M} {q : Fin w} {p : Ph} (hP : PhOk c s q p)
    (hk : p.cls = .active) (hreq : s.rreq q = true) :
    (∃ a, a ≠ Act.master ∧ (act c s a).isSome) ∨ ∃ v, s.outbox q = [.here v] := by
  cases p with
  | idx i =>
    obtain ⟨m, hm, -, hw, ho⟩ := hP
    left
    cases m with
    | posted => exact ⟨.moveIdx q, by simp, by simp [act, moveIdx, hm, hw]⟩
    | sent v => exact ⟨.moveIdx q, by simp, by simp [act, moveIdx, hm]⟩
    | here v => exact ⟨.worker q, by simp, by rcases hw with hw | hw <;> simp [act, worker, hm, hw]⟩
  | ev i =>
    obtain ⟨hin, hw, ho⟩ := hP
    exact Or.inl ⟨.worker q, by simp, by simp [act, worker, hw, wWaitable, ho]⟩
  | res i =>
    obtain ⟨hin, hw, m, hm, -⟩ := hP
    cases m with
    | posted => exact Or.inl ⟨.moveRes q, by simp, by simp [act, moveRes, hm, hreq]⟩
    | sent v => exact Or.inl ⟨.moveRes q, by simp, by simp [act, moveRes, hm]⟩
    | here v => exact Or.inr ⟨v, hm⟩
  | _ => simp [Ph.cls] at hk

/-- No deadlock, and no endless polling without a message on its way: in every state short of the end an
evaluator or the network can act, or rank 0 acts and comes closer to the end. -/
theorem progress {c : Cfg M} (hw : 1 ≤ w) (hS : w ≤ c.S) {s : St w M} (hI : Inv c s)
    (hf : ¬ Final s) :
    (∃ a, a ≠ Act.master ∧ (act c s a).isSome) ∨
    ∃ s', master c s = some s' ∧ (mu c s' < mu c s ∨ (mu c s' = mu c s ∧ dist c s' < dist c s)) := by
  by_cases hoth : ∃ a, a ≠ Act.master ∧ (act c s a).isSome
  · exact Or.inl hoth
  right
  have hI' := hI
  obtain ⟨ph, sent, hP, -, hM⟩ := hI'
  unfold MasterOk at hM
  -- it is enough that rank 0 can act, outside the polling loop
  have enough : ∀ s', master c s = some s' → (¬ SameNet s s' ∨ dist c s' < dist c s) →
      ∃ s', master c s = some s' ∧ (mu c s' < mu c s ∨ (mu c s' = mu c s ∧ dist c s' < dist c s)) := by
    intro s' hs h
    refine ⟨s', hs, ?_⟩
    rcases mu_master hI hs with h1 | ⟨h1, h2⟩
    · exact Or.inl h1
    · rcases h with h | h
      · exact (h h2).elim
      · exact Or.inr ⟨h1, h⟩
  have decr : ∀ s', master c s = some s' → mu c s' < mu c s →
      ∃ s', master c s = some s' ∧ (mu c s' < mu c s ∨ (mu c s' = mu c s ∧ dist c s' < dist c s)) :=
    fun s' hs h => ⟨s', hs, Or.inl h⟩
  have waitIf : ∀ q : Fin w, (ph q).cls ≠ .fresh → waitable s q = true := by
    intro q hq
    have h2 := hP q
    cases hp : ph q with
    | idx i =>
      rw [hp] at h2
      obtain ⟨m, hm, -, hw', ho⟩ := h2
      cases m with
      | posted => exact (hoth ⟨.moveIdx q, by simp, by simp [act, moveIdx, hm, hw']⟩).elim
      | sent v => simp [waitable, hm, Msg.left]
      | here v => simp [waitable, hm, Msg.left]
    | fin =>
      rw [hp] at h2
      obtain ⟨m, hm, -, hw', ho⟩ := h2
      cases m with
      | posted => exact (hoth ⟨.moveIdx q, by simp, by simp [act, moveIdx, hm, hw']⟩).elim
      | sent v => simp [waitable, hm, Msg.left]
      | here v => simp [waitable, hm, Msg.left]
    | fresh => rw [hp] at hq; exact (hq rfl).elim
    | ev i => rw [hp] at h2; simp [waitable, h2.1]
    | res i => rw [hp] at h2; simp [waitable, h2.1]
    | idle => rw [hp] at h2; simp [waitable, h2.1]
    | ended => rw [hp] at h2; simp [waitable, h2.1]
  cases hpc : s.pc with
  | start =>
    have : master c s = some { s with pc := .initSend 0 } := by simp [master, hpc, hS]
    refine decr _ this ?_
    rcases mu_master hI this with h | ⟨h, -⟩
    · exact h
    · simp only [mu, hpc, pot, rankW] at h; omega
  | initSend r =>
    simp only [hpc] at hM
    obtain ⟨hle, hrw, hi, -⟩ := hM
    by_cases hlt : r < w
    · have : master c s = some { postIdx s ⟨r, hlt⟩ s.idx with pc := .initWait r } := by
        simp [master, hpc, hlt, show s.idx < c.S by omega]
      refine enough _ this (Or.inl fun h => ?_)
      have := congrFun h.inbox ⟨r, hlt⟩
      simp [postIdx] at this
    · have : master c s = some { s with pc := .initRecv 0 } := by simp [master, hpc, hlt]
      refine decr _ this ?_
      rcases mu_master hI this with h | ⟨h, -⟩
      · exact h
      · simp only [mu, hpc, pot, rankW] at h; omega
  | initWait r =>
    simp only [hpc] at hM
    obtain ⟨hle, hrw, hi, hsent, hk, hr⟩ := hM
    have hwt : waitable s ⟨r, hrw⟩ = true := waitIf _ (by rw [hk]; simp)
    have : master c s = some { s with idx := s.idx + 1, pc := .initSend (r + 1) } := by
      simp [master, hpc, hrw, hwt]
    refine enough _ this (Or.inl fun h => ?_)
    have := h.idx
    simp at this
  | initRecv r =>
    simp only [hpc] at hM
    obtain ⟨hle, hrw, hi, hsent, hk, hr⟩ := hM
    by_cases hlt : r < w
    · have hrq : s.rreq ⟨r, hlt⟩ = false := by rw [hr]; simp
      have : master c s = some { s with
          rreq := Function.update s.rreq ⟨r, hlt⟩ true, pc := .initRecv (r + 1) } := by
        simp [master, hpc, hlt, hrq]
      refine enough _ this (Or.inl fun h => ?_)
      have := congrFun h.rreq ⟨r, hlt⟩
      simp [hrq] at this
    · have : master c s = some { s with finish := fun _ => false, last := false, pc := .top } := by
        simp [master, hpc, hlt]
      refine decr _ this ?_
      rcases mu_master hI this with h | ⟨h, -⟩
      · exact h
      · simp only [mu, hpc, pot, rankW] at h; omega
  | top =>
    simp only [hpc] at hM
    obtain ⟨hL, hl1, hl2⟩ := hM
    by_cases hc : s.idx ≤ c.S ∨ s.last = true
    · have : master c s = some { s with pc := .sweep 0 } := by simp [master, hpc, hc]
      refine enough _ this (Or.inr ?_)
      have hn : ¬ (s.last = false ∧ c.S < s.idx) := by
        rintro ⟨h1, h2⟩
        rcases hc with h | h
        · omega
        · rw [h1] at h; cases h
      simp only [dist, hpc]
      rw [if_neg hn]
      by_cases hex : ∃ q, s.finish q = false
      · obtain ⟨q, hq⟩ := hex
        rw [if_pos (show ∃ q, s.finish q = false from ⟨q, hq⟩),
          if_pos (show ∃ q : Fin w, 0 ≤ (q : ℕ) ∧ s.finish q = false from ⟨q, Nat.zero_le _, hq⟩)]
        omega
      · rw [if_neg hex, if_neg (show ¬ ∃ q : Fin w, 0 ≤ (q : ℕ) ∧ s.finish q = false from
          fun ⟨q, _, hq⟩ => hex ⟨q, hq⟩)]
        omega
    · have : master c s = some { s with pc := .finSend 0 } := by simp [master, hpc, hc]
      refine decr _ this ?_
      rcases mu_master hI this with h | ⟨h, -⟩
      · exact h
      · simp only [mu, hpc, pot, rankW] at h; omega
  | sweep r =>
    simp only [hpc] at hM
    obtain ⟨hrw, hL, hl1, hl2⟩ := hM
    by_cases hlt : r < w
    · by_cases hfin : s.finish ⟨r, hlt⟩ = false
      · have hreq : s.rreq ⟨r, hlt⟩ = true := by rw [hL.req, hfin]; rfl
        rcases active_moves (hP ⟨r, hlt⟩) (hL.act _ hfin) hreq with h | ⟨v, ho⟩
        · exact (hoth h).elim
        · obtain ⟨s', hs'⟩ : ∃ s', master c s = some s' := by
            simp [master, hpc, hlt, test, hreq, ho, hfin]
          refine enough _ hs' (Or.inl fun h => ?_)
          have h1 := congrFun h.outbox ⟨r, hlt⟩
          have ht : test s ⟨r, hlt⟩ = (true, { s with
              rreq := Function.update s.rreq ⟨r, hlt⟩ false,
              rbuf := Function.update s.rbuf ⟨r, hlt⟩ v,
              outbox := Function.update s.outbox ⟨r, hlt⟩ [] }) := by
            simp [test, hreq, ho]
          have hs'' : some (collect c { s with
              rreq := Function.update s.rreq ⟨r, hlt⟩ false,
              rbuf := Function.update s.rbuf ⟨r, hlt⟩ v,
              outbox := Function.update s.outbox ⟨r, hlt⟩ [] } ⟨r, hlt⟩) = some s' := by
            rw [← hs']
            unfold master
            split <;> rename_i heq <;> rw [hpc] at heq <;> cases heq
            rw [dif_pos hlt, ht]
            simp [hfin]
          obtain rfl := Option.some.inj hs''
          rw [(collect_fields c _ _).2.1, ho] at h1
          simp at h1
      · have hfin' : s.finish ⟨r, hlt⟩ = true := by simpa using hfin
        have hreq : s.rreq ⟨r, hlt⟩ = false := by rw [hL.req, hfin']; rfl
        have : master c s = some { s with pc := .sweep (r + 1) } := by
          simp [master, hpc, hlt, test, hreq, hfin']
        refine enough _ this (Or.inr ?_)
        simp only [dist, hpc]
        by_cases hex : ∃ q : Fin w, r ≤ (q : ℕ) ∧ s.finish q = false
        · obtain ⟨q, hq1, hq2⟩ := hex
          have : (q : ℕ) ≠ r := by
            rintro rfl
            exact hfin hq2
          rw [if_pos (show ∃ q : Fin w, r ≤ (q : ℕ) ∧ s.finish q = false from ⟨q, hq1, hq2⟩),
            if_pos (show ∃ q : Fin w, r + 1 ≤ (q : ℕ) ∧ s.finish q = false from ⟨q, by omega, hq2⟩)]
          omega
        · rw [if_neg hex, if_neg (show ¬ ∃ q : Fin w, r + 1 ≤ (q : ℕ) ∧ s.finish q = false from
            fun ⟨q, h1, h2⟩ => hex ⟨q, by omega, h2⟩)]
          omega
    · have : master c s = some { s with pc := .endSweep } := by simp [master, hpc, hlt]
      refine enough _ this (Or.inr ?_)
      simp only [dist, hpc]
      rw [if_neg (fun ⟨q, h1, h2⟩ => hlt (by have := q.2; omega))]
      omega
  | waitIdx r =>
    simp only [hpc] at hM
    obtain ⟨hlt, hle, hsent, hi, hlast, hnone, hk, hr⟩ := hM
    have hrq : s.rreq ⟨r, hlt⟩ = false := by rw [hr]; simp
    have hwt : waitable s ⟨r, hlt⟩ = true := waitIf _ (by rw [hk]; simp)
    obtain ⟨s', hs', hs2⟩ : ∃ s', master c s = some s' ∧ s'.idx = s.idx + 1 := by
      simp [master, hpc, hlt, hwt, postIdx, hrq]
    refine enough _ hs' (Or.inl fun h => ?_)
    have := h.idx
    omega
  | endSweep =>
    simp only [hpc] at hM
    obtain ⟨hL, hl1, hl2⟩ := hM
    have : master c s = some { s with
        last := if s.last then decide (∃ r, s.finish r = false) else s.last, pc := .top } := by
      simp [master, hpc]
    refine enough _ this (Or.inr ?_)
    simp only [dist, hpc]
    by_cases hex : ∃ q, s.finish q = false
    · rw [if_pos hex]
      have : ∀ (P : Prop) [Decidable P], (if P then 0 else w + 1) < w + 5 := by
        intro P _; split <;> omega
      exact this _
    · have hall : s.finish ⟨0, hw⟩ = true := by
        by_contra h
        exact hex ⟨_, by simpa using h⟩
      have hlast : s.last = true := by
        by_contra h
        have := (hl2 (by simpa using h)).2 ⟨0, hw⟩
        rw [hall] at this
        cases this
      rw [if_pos]
      · omega
      · refine ⟨?_, hl1 hlast⟩
        rw [if_pos hlast]
        exact decide_eq_false hex
  | finSend r =>
    simp only [hpc] at hM
    obtain ⟨hrw, hsent, hr, hk⟩ := hM
    by_cases hlt : r < w
    · have hwt : waitable s ⟨r, hlt⟩ = true := waitIf _ (by rw [hk]; simp)
      have : master c s = some { postIdx s ⟨r, hlt⟩ (-1) with pc := .finSend (r + 1) } := by
        simp [master, hpc, hlt, hwt]
      refine enough _ this (Or.inl fun h => ?_)
      have := congrFun h.inbox ⟨r, hlt⟩
      simp [postIdx] at this
    · have : master c s = some { s with pc := .finWait 0 } := by simp [master, hpc, hlt]
      refine decr _ this ?_
      rcases mu_master hI this with h | ⟨h, -⟩
      · exact h
      · simp only [mu, hpc, pot, rankW] at h; omega
  | finWait r =>
    simp only [hpc] at hM
    obtain ⟨hrw, hsent, hr, hk⟩ := hM
    by_cases hlt : r < w
    · have hwt : waitable s ⟨r, hlt⟩ = true := waitIf _ (by rw [hk]; simp)
      have : master c s = some { s with pc := .finWait (r + 1) } := by
        simp [master, hpc, hlt, hwt, test, hr]
      refine decr _ this ?_
      rcases mu_master hI this with h | ⟨h, -⟩
      · exact h
      · simp only [mu, hpc, pot, rankW] at h; omega
    · have : master c s = some { s with pc := .done } := by simp [master, hpc, hlt]
      refine decr _ this ?_
      rcases mu_master hI this with h | ⟨h, -⟩
      · exact h
      · simp only [mu, hpc, pot, rankW] at h; omega
  | done =>
    exfalso
    simp only [hpc] at hM
    obtain ⟨hsent, hr, hk⟩ := hM
    refine hf ⟨hpc, fun q => ?_⟩
    have h1 := hP q
    have h2 := hk q
    cases hp : ph q with
    | fin =>
      rw [hp] at h1
      obtain ⟨m, hm, -, hw', ho⟩ := h1
      exfalso
      cases m with
      | posted => exact hoth ⟨.moveIdx q, by simp, by simp [act, moveIdx, hm, hw']⟩
      | sent v => exact hoth ⟨.moveIdx q, by simp, by simp [act, moveIdx, hm]⟩
      | here v => exact hoth ⟨.worker q, by simp, by simp [act, worker, hm, hw']⟩
    | ended => rw [hp] at h1; exact h1.2.1
    | _ => rw [hp] at h2; simp [Ph.cls] at h2
  | abort =>
    simp only [hpc] at hM
    omega

/-- A schedule in which every rank acts, and every message is moved, again and again. -/
def Fair (sch : ℕ → Act w) : Prop := ∀ a n, ∃ m, n ≤ m ∧ sch m = a

theorem inv_trace {c : Cfg M} (hw : 1 ≤ w) (sch : ℕ → Act w) (n : ℕ) : Inv c (trace c sch n) := by
  induction n with
  | zero => exact inv_init c
  | succ n ih => exact inv_step hw ih _

theorem mu_step {c : Cfg M} {s : St w M} (hI : Inv c s) (a : Act w) :
    mu c (step c s a) ≤ mu c s := by
  unfold step
  cases hs : act c s a with
  | none => exact le_rfl
  | some s' =>
    by_cases ha : a = .master
    · subst ha
      rcases mu_master hI hs with h | ⟨h, -⟩
      · exact h.le
      · exact h.le
    · exact (mu_other ha hs).le

/-- What an evaluator or the network can do stays possible until something is done. -/
theorem persist {c : Cfg M} (hw : 1 ≤ w) {sch : ℕ → Act w} (hF : Fair sch) (n : ℕ) {a : Act w}
    (ha : a ≠ .master) (he : (act c (trace c sch n) a).isSome) :
    ∃ k, n ≤ k ∧ mu c (trace c sch k) < mu c (trace c sch n) := by
  obtain ⟨m, hm, hsch⟩ := hF a n
  obtain ⟨j, rfl⟩ := Nat.exists_eq_add_of_le hm
  have key : ∀ i, (∃ k, n ≤ k ∧ mu c (trace c sch k) < mu c (trace c sch n)) ∨
      (mu c (trace c sch (n + i)) = mu c (trace c sch n) ∧ (act c (trace c sch (n + i)) a).isSome) := by
    intro i
    induction i with
    | zero => exact Or.inr ⟨rfl, he⟩
    | succ i ih =>
      rcases ih with h | ⟨h1, h2⟩
      · exact Or.inl h
      · have hI := inv_trace (c := c) hw sch (n + i)
        have hstep : trace c sch (n + (i + 1)) = step c (trace c sch (n + i)) (sch (n + i)) := rfl
        cases hs : act c (trace c sch (n + i)) (sch (n + i)) with
        | none =>
          have : trace c sch (n + (i + 1)) = trace c sch (n + i) := by
            rw [hstep, step, hs]; rfl
          rw [this]
          exact Or.inr ⟨h1, h2⟩
        | some s' =>
          have : trace c sch (n + (i + 1)) = s' := by rw [hstep, step, hs]; rfl
          by_cases hm : sch (n + i) = .master
          · rw [hm] at hs
            rcases mu_master hI hs with h | ⟨h, hsame⟩
            · exact Or.inl ⟨n + (i + 1), by omega, by rw [this]; omega⟩
            · rw [this]
              exact Or.inr ⟨by omega, hsame.enabled ha h2⟩
          · have := mu_other hm hs
            exact Or.inl ⟨n + (i + 1), by omega, by rw [‹trace c sch (n + (i + 1)) = s'›]; omega⟩
  rcases key j with h | ⟨h1, h2⟩
  · exact h
  · obtain ⟨s', hs⟩ := Option.isSome_iff_exists.mp h2
    refine ⟨n + j + 1, by omega, ?_⟩
    have : trace c sch (n + j + 1) = s' := by
      change step c (trace c sch (n + j)) (sch (n + j)) = s'
      rw [step, hsch, hs]; rfl
    rw [this, ← h1]
    exact mu_other ha hs

/-- Rank 0 eventually takes its next action if nothing else happens meanwhile. -/
theorem master_turn {c : Cfg M} {sch : ℕ → Act w} (hF : Fair sch) (n : ℕ) {s' : St w M}
    (hs : master c (trace c sch n) = some s') :
    ∃ k, n ≤ k ∧ (mu c (trace c sch k) < mu c (trace c sch n) ∨ trace c sch k = s') := by
  obtain ⟨m, hm, hsch⟩ := hF .master n
  obtain ⟨j, rfl⟩ := Nat.exists_eq_add_of_le hm
  have key : ∀ i, (∃ k, n ≤ k ∧ (mu c (trace c sch k) < mu c (trace c sch n) ∨ trace c sch k = s')) ∨
      trace c sch (n + i) = trace c sch n := by
    intro i
    induction i with
    | zero => exact Or.inr rfl
    | succ i ih =>
      rcases ih with h | h1
      · exact Or.inl h
      · have hstep : trace c sch (n + (i + 1)) = step c (trace c sch (n + i)) (sch (n + i)) := rfl
        cases hs2 : act c (trace c sch (n + i)) (sch (n + i)) with
        | none =>
          refine Or.inr ?_
          rw [hstep, step, hs2, ← h1]; rfl
        | some s2 =>
          have h3 : trace c sch (n + (i + 1)) = s2 := by rw [hstep, step, hs2]; rfl
          by_cases hm : sch (n + i) = .master
          · rw [hm, h1] at hs2
            have : some s2 = some s' := by rw [← hs2]; exact hs
            exact Or.inl ⟨n + (i + 1), by omega, Or.inr (by rw [h3]; exact Option.some.inj this)⟩
          · refine Or.inl ⟨n + (i + 1), by omega, Or.inl ?_⟩
            rw [h3, ← h1]
            exact mu_other hm hs2
  rcases key j with h | h1
  · exact h
  · refine ⟨n + j + 1, by omega, Or.inr ?_⟩
    change step c (trace c sch (n + j)) (sch (n + j)) = s'
    rw [step, hsch, h1]
    change (master c (trace c sch n)).getD _ = s'
    rw [hs]; rfl

theorem terminates {c : Cfg M} (hw : 1 ≤ w) (hS : w ≤ c.S) {sch : ℕ → Act w} (hF : Fair sch) :
    ∀ n, ∃ k, n ≤ k ∧ Final (trace c sch k) := by
  suffices H : ∀ (p : ℕ ×ₗ ℕ) (n : ℕ), toLex (mu c (trace c sch n), dist c (trace c sch n)) = p →
      ∃ k, n ≤ k ∧ Final (trace c sch k) from fun n => H _ n rfl
  intro p
  induction p using WellFoundedLT.induction with
  | _ p ih =>
    rintro n rfl
    by_cases hf : Final (trace c sch n)
    · exact ⟨n, le_rfl, hf⟩
    rcases progress hw hS (inv_trace hw sch n) hf with ⟨a, ha, he⟩ | ⟨s', hs', hd⟩
    · obtain ⟨k, hk, hlt⟩ := persist hw hF n ha he
      obtain ⟨k', hk', hfin⟩ := ih _ (Prod.Lex.toLex_lt_toLex.mpr (Or.inl hlt)) k rfl
      exact ⟨k', by omega, hfin⟩
    · obtain ⟨k, hk, h | h⟩ := master_turn hF n hs'
      · obtain ⟨k', hk', hfin⟩ := ih _ (Prod.Lex.toLex_lt_toLex.mpr (Or.inl h)) k rfl
        exact ⟨k', by omega, hfin⟩
      · have hlt : toLex (mu c (trace c sch k), dist c (trace c sch k))
            < toLex (mu c (trace c sch n), dist c (trace c sch n)) := by
          rw [h]
          rcases hd with h1 | ⟨h1, h2⟩
          · exact Prod.Lex.toLex_lt_toLex.mpr (Or.inl h1)
          · exact Prod.Lex.toLex_lt_toLex.mpr (Or.inr ⟨h1, h2⟩)
        obtain ⟨k', hk', hfin⟩ := ih _ hlt k rfl
        exact ⟨k', by omega, hfin⟩

end Hiop.PriDec
