import Verif.PriDec.Protocol
import Mathlib.Data.Multiset.Range
import Mathlib.Algebra.BigOperators.Group.Finset.Basic
import Mathlib.Algebra.Order.BigOperators.Group.Finset
import Mathlib.Tactic.Abel

/-!
# Primal decomposition protocol: the inductive invariant
-/

set_option linter.unusedSectionVars false

namespace Hiop.PriDec

variable {w : ℕ} {M : Type} [AddCommGroup M]

/-- Data of a message, given the sender's buffer. -/
def Msg.get {α : Type} (b : α) : Msg α → α
  | .posted => b
  | .sent a => a
  | .here a => a

/-- Where a rank stands in its conversation with rank 0. -/
inductive Ph where
  | fresh
  | idx (i : ℕ)
  | ev (i : ℕ)
  | res (i : ℕ)
  | idle
  | fin
  | ended

/-- Coarse class of a phase: what rank 0's control state determines. -/
inductive Cls where
  | fresh
  | active
  | idle
  | ending
  deriving DecidableEq

def Ph.cls : Ph → Cls
  | .fresh => .fresh
  | .idx _ => .active
  | .ev _ => .active
  | .res _ => .active
  | .idle => .idle
  | .fin => .ending
  | .ended => .ending

/-- The messages and control of rank `r` match phase `p`. -/
def PhOk (c : Cfg M) (s : St w M) (r : Fin w) : Ph → Prop
  | .fresh => s.inbox r = [] ∧ s.wpc r = .recv0 ∧ s.outbox r = []
  | .idx i => ∃ m, s.inbox r = [m] ∧ m.get (s.cbuf r) = (i : ℤ) ∧
      (s.wpc r = .recv0 ∨ s.wpc r = .poll) ∧ s.outbox r = []
  | .ev i => s.inbox r = [] ∧ s.wpc r = .eval i ∧ s.outbox r = []
  | .res i => s.inbox r = [] ∧ s.wpc r = .poll ∧ ∃ m, s.outbox r = [m] ∧ m.get (s.wbuf r) = c.pay i
  | .idle => s.inbox r = [] ∧ s.wpc r = .poll ∧ s.outbox r = []
  | .fin => ∃ m, s.inbox r = [m] ∧ m.get (s.cbuf r) = -1 ∧ s.wpc r = .poll ∧ s.outbox r = []
  | .ended => s.inbox r = [] ∧ s.wpc r = .done ∧ s.outbox r = []

/-- Indices rank `r` has still to evaluate. -/
def Ph.toEv : Ph → Multiset ℤ
  | .idx i => {(i : ℤ)}
  | .ev i => {(i : ℤ)}
  | _ => 0

/-- What rank 0 has still to receive from rank `r`. -/
def Ph.toAcc (c : Cfg M) : Ph → M
  | .idx i => c.pay i
  | .ev i => c.pay i
  | .res i => c.pay i
  | _ => 0

/-- What rank `r` has still to add to its local sum. -/
def Ph.toLoc (c : Cfg M) : Ph → M
  | .idx i => c.part i
  | .ev i => c.part i
  | _ => 0

/-- Conservation: nothing is lost or counted twice. -/
structure Sums (c : Cfg M) (s : St w M) (ph : Fin w → Ph) (sent : ℕ) : Prop where
  ev : (s.evals : Multiset ℤ) + ∑ r, (ph r).toEv = (Multiset.range sent).map (fun i : ℕ => (i : ℤ))
  acc : s.acc + ∑ r, (ph r).toAcc c = ∑ i ∈ Finset.range sent, c.pay (i : ℤ)
  loc : ∑ r, s.wacc r + ∑ r, (ph r).toLoc c = ∑ i ∈ Finset.range sent, c.part (i : ℤ)

/-- The collection loop of rank 0 at any point other than the wait for an index send. -/
structure LoopOk (c : Cfg M) (s : St w M) (k : Fin w → Cls) (sent : ℕ) : Prop where
  le : w ≤ c.S
  hsent : sent = min s.idx c.S
  fin : ∀ r, s.finish r = true → k r = .idle
  act : ∀ r, s.finish r = false → k r = .active
  req : ∀ r, s.rreq r = !s.finish r
  over : (∃ r, s.finish r = true) → c.S < s.idx

/-- What rank 0's control state implies about every rank. -/
def MasterOk (c : Cfg M) (s : St w M) (k : Fin w → Cls) (sent : ℕ) : Prop :=
  match s.pc with
  | .start => (∀ r, k r = .fresh) ∧ sent = 0 ∧ s.idx = 0 ∧ ∀ r, s.rreq r = false
  | .initSend r => w ≤ c.S ∧ r ≤ w ∧ s.idx = r ∧ sent = r ∧
      (∀ q : Fin w, k q = if (q : ℕ) < r then .active else .fresh) ∧ ∀ q, s.rreq q = false
  | .initWait r => w ≤ c.S ∧ r < w ∧ s.idx = r ∧ sent = r + 1 ∧
      (∀ q : Fin w, k q = if (q : ℕ) < r + 1 then .active else .fresh) ∧ ∀ q, s.rreq q = false
  | .initRecv r => w ≤ c.S ∧ r ≤ w ∧ s.idx = w ∧ sent = w ∧ (∀ q, k q = .active) ∧
      ∀ q : Fin w, s.rreq q = decide ((q : ℕ) < r)
  | .top => LoopOk c s k sent ∧ (s.last = true → c.S < s.idx) ∧
      (s.last = false → (s.idx ≤ c.S ∧ ∀ r, s.finish r = false) ∨ ∀ r, s.finish r = true)
  | .sweep r => r ≤ w ∧ LoopOk c s k sent ∧ (s.last = true → c.S < s.idx) ∧
      (s.last = false → s.idx ≤ c.S ∧ ∀ r, s.finish r = false)
  | .endSweep => LoopOk c s k sent ∧ (s.last = true → c.S < s.idx) ∧
      (s.last = false → s.idx ≤ c.S ∧ ∀ r, s.finish r = false)
  | .waitIdx r => r < w ∧ w ≤ c.S ∧ sent = s.idx ∧ s.idx < c.S ∧ s.last = false ∧
      (∀ q, s.finish q = false) ∧ (∀ q : Fin w, k q = if (q : ℕ) = r then .idle else .active) ∧
      ∀ q : Fin w, s.rreq q = !decide ((q : ℕ) = r)
  | .finSend r => r ≤ w ∧ sent = c.S ∧ (∀ q, s.rreq q = false) ∧
      ∀ q : Fin w, k q = if (q : ℕ) < r then .ending else .idle
  | .finWait r => r ≤ w ∧ sent = c.S ∧ (∀ q, s.rreq q = false) ∧ ∀ q, k q = .ending
  | .done => sent = c.S ∧ (∀ q, s.rreq q = false) ∧ ∀ q, k q = .ending
  | .abort => c.S < w

/-- The invariant. -/
def Inv (c : Cfg M) (s : St w M) : Prop :=
  ∃ (ph : Fin w → Ph) (sent : ℕ), (∀ r, PhOk c s r (ph r)) ∧ Sums c s ph sent ∧
    MasterOk c s (fun r => (ph r).cls) sent

theorem inv_init (c : Cfg M) : Inv c (init : St w M) := by
  refine ⟨fun _ => .fresh, 0, fun r => ?_, ⟨?_, ?_, ?_⟩, ?_⟩ <;>
    simp [init, PhOk, Ph.toEv, Ph.toAcc, Ph.toLoc, MasterOk, Ph.cls]

/-- Changing one rank's phase changes a sum by the difference. -/
theorem sum_update {A B : Type} [AddCommMonoid A] (ph : Fin w → B) (r : Fin w) (p : B) (g : B → A) :
    (∑ q, g (Function.update ph r p q)) + g (ph r) = (∑ q, g (ph q)) + g p := by
  have h1 : ∑ q, g (Function.update ph r p q) = g p + ∑ q ∈ Finset.univ.erase r, g (ph q) := by
    rw [← Finset.add_sum_erase _ _ (Finset.mem_univ r)]
    congr 1
    · simp
    · refine Finset.sum_congr rfl fun q hq => ?_
      rw [Function.update_of_ne (Finset.ne_of_mem_erase hq)]
  rw [h1, ← Finset.add_sum_erase Finset.univ (fun q => g (ph q)) (Finset.mem_univ r)]
  abel

theorem cls_update (ph : Fin w → Ph) (r : Fin w) (p : Ph) (h : p.cls = (ph r).cls) :
    (fun q => (Function.update ph r p q).cls) = fun q => (ph q).cls := by
  funext q
  by_cases e : q = r
  · subst e; simpa using h
  · rw [Function.update_of_ne e]

/-- A rank's phase depends only on that rank's messages and control. -/
theorem PhOk.congr {c : Cfg M} {s s' : St w M} {q : Fin w} {p : Ph}
    (h1 : s'.inbox q = s.inbox q) (h2 : s'.outbox q = s.outbox q) (h3 : s'.wpc q = s.wpc q)
    (h4 : s'.cbuf q = s.cbuf q) (h5 : s'.wbuf q = s.wbuf q) (h : PhOk c s q p) : PhOk c s' q p := by
  cases p <;> simpa only [PhOk, h1, h2, h3, h4, h5] using h

/-- Rank 0's part of the invariant depends only on rank 0's variables. -/
theorem MasterOk.congr {c : Cfg M} {s s' : St w M} {k : Fin w → Cls} {sent : ℕ}
    (h1 : s'.pc = s.pc) (h2 : s'.idx = s.idx) (h3 : s'.last = s.last) (h4 : s'.finish = s.finish)
    (h5 : s'.rreq = s.rreq) (h : MasterOk c s k sent) : MasterOk c s' k sent := by
  have hl : ∀ k sent, LoopOk c s k sent → LoopOk c s' k sent := by
    intro k sent hL
    exact ⟨hL.le, by rw [h2]; exact hL.hsent, by rw [h4]; exact hL.fin, by rw [h4]; exact hL.act,
      by rw [h4, h5]; exact hL.req, by rw [h4, h2]; exact hL.over⟩
  unfold MasterOk at h ⊢
  rw [h1]
  cases hpc : s.pc <;> simp only [hpc] at h ⊢ <;> try simp only [h2, h3, h4, h5]
  all_goals
    first
    | exact h
    | exact ⟨hl _ _ h.1, h.2⟩
    | exact ⟨h.1, hl _ _ h.2.1, h.2.2⟩

/-- An action of the network or of an evaluator: one rank's phase moves within its class. -/
theorem inv_local {c : Cfg M} {s s' : St w M} {ph : Fin w → Ph} {sent : ℕ} (r : Fin w) (p : Ph)
    (hP : ∀ q, PhOk c s q (ph q)) (hM : MasterOk c s (fun q => (ph q).cls) sent)
    (hcls : p.cls = (ph r).cls)
    (hother : ∀ q, q ≠ r → s'.inbox q = s.inbox q ∧ s'.outbox q = s.outbox q ∧ s'.wpc q = s.wpc q ∧
      s'.cbuf q = s.cbuf q ∧ s'.wbuf q = s.wbuf q)
    (hmast : s'.pc = s.pc ∧ s'.idx = s.idx ∧ s'.last = s.last ∧ s'.finish = s.finish ∧
      s'.rreq = s.rreq)
    (hp : PhOk c s' r p) (hS : Sums c s' (Function.update ph r p) sent) : Inv c s' := by
  refine ⟨Function.update ph r p, sent, fun q => ?_, hS, ?_⟩
  · by_cases e : q = r
    · subst e; simpa using hp
    · rw [Function.update_of_ne e]
      obtain ⟨a, b, d, e', f⟩ := hother q e
      exact (hP q).congr a b d e' f
  · rw [cls_update ph r p hcls]
    exact hM.congr hmast.1 hmast.2.1 hmast.2.2.1 hmast.2.2.2.1 hmast.2.2.2.2

theorem Sums.same {c : Cfg M} {s s' : St w M} {ph : Fin w → Ph} {sent : ℕ} (r : Fin w)
    (h : Sums c s ph sent) (h1 : s'.evals = s.evals) (h2 : s'.acc = s.acc) (h3 : s'.wacc = s.wacc) :
    Sums c s' (Function.update ph r (ph r)) sent := by
  rw [Function.update_eq_self]
  exact ⟨by rw [h1]; exact h.ev, by rw [h2]; exact h.acc, by rw [h3]; exact h.loc⟩

theorem inv_moveIdx {c : Cfg M} {s s' : St w M} {r : Fin w} (h : Inv c s)
    (hs : moveIdx c s r = some s') : Inv c s' := by
  obtain ⟨ph, sent, hP, hS, hM⟩ := h
  unfold moveIdx at hs
  have key : ∀ m m' : Msg ℤ, m'.get (s.cbuf r) = m.get (s.cbuf r) → s.inbox r = m :: [] →
      PhOk c { s with inbox := Function.update s.inbox r [m'] } r (ph r) := by
    intro m m' hm hin
    have := hP r
    cases hp : ph r <;> rw [hp] at this <;> simp_all [PhOk]
  have hlen : ∀ m t, s.inbox r = m :: t → t = [] := by
    intro m t e
    have := hP r
    cases hp : ph r <;> rw [hp] at this <;> simp_all [PhOk]
  split at hs
  · rename_i t hin
    obtain rfl := hlen _ _ hin
    split at hs
    · obtain rfl := Option.some.inj hs
      refine inv_local r (ph r) hP hM rfl (fun q hq => ?_) ⟨rfl, rfl, rfl, rfl, rfl⟩
        (key .posted _ rfl hin) (hS.same r rfl rfl rfl)
      simp [Function.update_of_ne hq]
    · cases hs
  · rename_i v t hin
    obtain rfl := hlen _ _ hin
    obtain rfl := Option.some.inj hs
    refine inv_local r (ph r) hP hM rfl (fun q hq => ?_) ⟨rfl, rfl, rfl, rfl, rfl⟩
      (key (.sent v) _ rfl hin) (hS.same r rfl rfl rfl)
    simp [Function.update_of_ne hq]
  · cases hs

theorem inv_moveRes {c : Cfg M} {s s' : St w M} {r : Fin w} (h : Inv c s)
    (hs : moveRes c s r = some s') : Inv c s' := by
  obtain ⟨ph, sent, hP, hS, hM⟩ := h
  unfold moveRes at hs
  have key : ∀ m m' : Msg M, m'.get (s.wbuf r) = m.get (s.wbuf r) → s.outbox r = m :: [] →
      PhOk c { s with outbox := Function.update s.outbox r [m'] } r (ph r) := by
    intro m m' hm hin
    have := hP r
    cases hp : ph r <;> rw [hp] at this <;> simp_all [PhOk]
  have hlen : ∀ m t, s.outbox r = m :: t → t = [] := by
    intro m t e
    have := hP r
    cases hp : ph r <;> rw [hp] at this <;> simp_all [PhOk]
  split at hs
  · rename_i t hin
    obtain rfl := hlen _ _ hin
    split at hs
    · obtain rfl := Option.some.inj hs
      refine inv_local r (ph r) hP hM rfl (fun q hq => ?_) ⟨rfl, rfl, rfl, rfl, rfl⟩
        (key .posted _ rfl hin) (hS.same r rfl rfl rfl)
      simp [Function.update_of_ne hq]
    · cases hs
  · rename_i v t hin
    obtain rfl := hlen _ _ hin
    obtain rfl := Option.some.inj hs
    refine inv_local r (ph r) hP hM rfl (fun q hq => ?_) ⟨rfl, rfl, rfl, rfl, rfl⟩
      (key (.sent v) _ rfl hin) (hS.same r rfl rfl rfl)
    simp [Function.update_of_ne hq]
  · cases hs

/-- Moving one rank's phase without touching the sums. -/
theorem Sums.move {c : Cfg M} {s s' : St w M} {ph : Fin w → Ph} {sent : ℕ} (r : Fin w) (p : Ph)
    (h : Sums c s ph sent) (h1 : s'.evals = s.evals) (h2 : s'.acc = s.acc) (h3 : s'.wacc = s.wacc)
    (e1 : p.toEv = (ph r).toEv) (e2 : p.toAcc c = (ph r).toAcc c) (e3 : p.toLoc c = (ph r).toLoc c) :
    Sums c s' (Function.update ph r p) sent := by
  have a1 := sum_update ph r p Ph.toEv
  have a2 := sum_update ph r p (Ph.toAcc c)
  have a3 := sum_update ph r p (Ph.toLoc c)
  rw [e1] at a1; rw [e2] at a2; rw [e3] at a3
  exact ⟨by rw [h1, add_right_cancel a1]; exact h.ev, by rw [h2, add_right_cancel a2]; exact h.acc,
    by rw [h3, add_right_cancel a3]; exact h.loc⟩

theorem inv_worker {c : Cfg M} {s s' : St w M} {r : Fin w} (h : Inv c s)
    (hs : worker c s r = some s') : Inv c s' := by
  obtain ⟨ph, sent, hP, hS, hM⟩ := h
  have hPr := hP r
  unfold worker at hs
  split at hs
  · -- first receive
    rename_i hw
    split at hs
    · rename_i i t hin
      obtain rfl := Option.some.inj hs
      cases hp : ph r with
      | idx j =>
        rw [hp] at hPr
        obtain ⟨m, hm, hg, -, ho⟩ := hPr
        rw [hin] at hm
        obtain ⟨rfl, rfl⟩ := List.cons.inj hm
        have hij : i = (j : ℤ) := hg
        subst hij
        refine inv_local r (.ev j) hP hM (by rw [hp]; rfl) (fun q hq => ?_) ⟨rfl, rfl, rfl, rfl, rfl⟩
          ?_ (hS.move r _ rfl rfl rfl (by rw [hp]; rfl) (by rw [hp]; rfl) (by rw [hp]; rfl))
        · simp [Function.update_of_ne hq]
        · simp [PhOk, ho]
      | _ => rw [hp] at hPr; simp_all [PhOk]
    · cases hs
  · -- evaluation
    rename_i i hw
    split at hs
    · rename_i hwait
      obtain rfl := Option.some.inj hs
      cases hp : ph r with
      | ev j =>
        rw [hp] at hPr
        obtain ⟨hin, hj, ho⟩ := hPr
        rw [hw] at hj
        obtain rfl := WPC.eval.inj hj
        refine inv_local r (.res j) hP hM (by rw [hp]; rfl) (fun q hq => ?_) ⟨rfl, rfl, rfl, rfl, rfl⟩
          ?_ ?_
        · simp [Function.update_of_ne hq]
        · simp [PhOk, ho, hin, Msg.get]
        · have a1 := sum_update ph r (.res j) Ph.toEv
          have a2 := sum_update ph r (.res j) (Ph.toAcc c)
          have a3 := sum_update ph r (.res j) (Ph.toLoc c)
          have a4 := sum_update s.wacc r (s.wacc r + c.part j) id
          rw [hp] at a1 a2 a3
          replace a1 := a1.trans (add_zero _)
          replace a3 := a3.trans (add_zero _)
          simp only [id] at a4
          refine ⟨?_, ?_, ?_⟩
          · rw [← hS.ev]
            change ((s.evals ++ [(j : ℤ)] : List ℤ) : Multiset ℤ) + _ = _
            rw [← Multiset.coe_add, Multiset.coe_singleton, add_assoc, add_comm {_}]
            congr 1
          · rw [← hS.acc]
            change s.acc + _ = _
            rw [add_right_cancel a2]
          · rw [← hS.loc, ← a3]
            change ∑ q, Function.update s.wacc r (s.wacc r + c.part j) q + _ = _
            have a5 : ∑ q, Function.update s.wacc r (s.wacc r + c.part (j : ℤ)) q
                = ∑ q, s.wacc q + c.part (j : ℤ) := by
              apply add_right_cancel (b := s.wacc r)
              rw [a4]; abel
            have e : Ph.toLoc c (Ph.ev j) = c.part j := rfl
            rw [a5, e]
            abel
      | _ => rw [hp] at hPr; simp_all [PhOk]
    · cases hs
  · -- polling
    rename_i hw
    split at hs
    · rename_i i t hin
      obtain rfl := Option.some.inj hs
      cases hp : ph r with
      | idx j =>
        rw [hp] at hPr
        obtain ⟨m, hm, hg, -, ho⟩ := hPr
        rw [hin] at hm
        obtain ⟨rfl, rfl⟩ := List.cons.inj hm
        have hij : i = (j : ℤ) := hg
        subst hij
        refine inv_local r (.ev j) hP hM (by rw [hp]; rfl) (fun q hq => ?_) ⟨rfl, rfl, rfl, rfl, rfl⟩
          ?_ (hS.move r _ rfl rfl rfl (by rw [hp]; rfl) (by rw [hp]; rfl) (by rw [hp]; rfl))
        · simp [Function.update_of_ne hq]
        · have : (j : ℤ) ≠ -1 := by omega
          simp [PhOk, ho, this]
      | fin =>
        rw [hp] at hPr
        obtain ⟨m, hm, hg, -, ho⟩ := hPr
        rw [hin] at hm
        obtain ⟨rfl, rfl⟩ := List.cons.inj hm
        have hij : i = -1 := hg
        subst hij
        refine inv_local r .ended hP hM (by rw [hp]; rfl) (fun q hq => ?_) ⟨rfl, rfl, rfl, rfl, rfl⟩
          ?_ (hS.move r _ rfl rfl rfl (by rw [hp]; rfl) (by rw [hp]; rfl) (by rw [hp]; rfl))
        · simp [Function.update_of_ne hq]
        · simp [PhOk, ho]
      | _ => rw [hp] at hPr; simp_all [PhOk]
    · cases hs
  · cases hs

/-- Handing the next index to a rank that has nothing outstanding. -/
theorem Sums.assign {c : Cfg M} {s s' : St w M} {ph : Fin w → Ph} {sent : ℕ} (r : Fin w)
    (h : Sums c s ph sent) (h1 : s'.evals = s.evals) (h2 : s'.acc = s.acc) (h3 : s'.wacc = s.wacc)
    (e1 : (ph r).toEv = 0) (e2 : (ph r).toAcc c = 0) (e3 : (ph r).toLoc c = 0) :
    Sums c s' (Function.update ph r (.idx sent)) (sent + 1) := by
  have a1 := sum_update ph r (.idx sent) Ph.toEv
  have a2 := sum_update ph r (.idx sent) (Ph.toAcc c)
  have a3 := sum_update ph r (.idx sent) (Ph.toLoc c)
  rw [e1, add_zero] at a1; rw [e2, add_zero] at a2; rw [e3, add_zero] at a3
  refine ⟨?_, ?_, ?_⟩
  · rw [h1, a1, ← add_assoc, h.ev, Multiset.range_succ, Multiset.map_cons]
    rw [add_comm]
    rfl
  · rw [h2, a2, ← add_assoc, h.acc, Finset.sum_range_succ]; rfl
  · rw [h3, a3, ← add_assoc, h.loc, Finset.sum_range_succ]; rfl

/-- A rank with nothing in flight gets a message posted. -/
theorem phOk_post {c : Cfg M} {s s' : St w M} {ph : Fin w → Ph} {r : Fin w} {v : ℤ} {p : Ph}
    (hP : ∀ q, PhOk c s q (ph q))
    (h1 : s'.inbox = Function.update s.inbox r (s.inbox r ++ [.posted])) (h2 : s'.outbox = s.outbox)
    (h3 : s'.wpc = s.wpc) (h4 : s'.cbuf = Function.update s.cbuf r v) (h5 : s'.wbuf = s.wbuf)
    (hp : PhOk c s' r p) : ∀ q, PhOk c s' q (Function.update ph r p q) := by
  intro q
  by_cases e : q = r
  · subst e; simpa using hp
  · rw [Function.update_of_ne e]
    refine (hP q).congr ?_ ?_ ?_ ?_ ?_
    · rw [h1, Function.update_of_ne e]
    · rw [h2]
    · rw [h3]
    · rw [h4, Function.update_of_ne e]
    · rw [h5]

theorem phOk_idx {c : Cfg M} {s s' : St w M} {r : Fin w} {p : Ph} {i : ℕ} (h : PhOk c s r p)
    (hp : p.cls = .fresh ∨ p.cls = .idle)
    (h1 : s'.inbox = Function.update s.inbox r (s.inbox r ++ [.posted])) (h2 : s'.outbox = s.outbox)
    (h3 : s'.wpc = s.wpc) (h4 : s'.cbuf = Function.update s.cbuf r i) : PhOk c s' r (.idx i) := by
  cases p <;> simp_all [PhOk, Ph.cls, Msg.get]

theorem phOk_fin {c : Cfg M} {s s' : St w M} {r : Fin w} {p : Ph} (h : PhOk c s r p)
    (hp : p.cls = .idle)
    (h1 : s'.inbox = Function.update s.inbox r (s.inbox r ++ [.posted])) (h2 : s'.outbox = s.outbox)
    (h3 : s'.wpc = s.wpc) (h4 : s'.cbuf = Function.update s.cbuf r (-1)) : PhOk c s' r .fin := by
  cases p <;> simp_all [PhOk, Ph.cls, Msg.get]

theorem quiet_toEv {p : Ph} (c : Cfg M) (hp : p.cls ≠ .active) :
    p.toEv = 0 ∧ p.toAcc c = 0 ∧ p.toLoc c = 0 := by
  cases p <;> simp_all [Ph.cls, Ph.toEv, Ph.toAcc, Ph.toLoc]

theorem phOk_all {c : Cfg M} {s s' : St w M} {ph : Fin w → Ph} (hP : ∀ q, PhOk c s q (ph q))
    (h1 : s'.inbox = s.inbox) (h2 : s'.outbox = s.outbox) (h3 : s'.wpc = s.wpc)
    (h4 : s'.cbuf = s.cbuf) (h5 : s'.wbuf = s.wbuf) : ∀ q, PhOk c s' q (ph q) := fun q =>
  (hP q).congr (by rw [h1]) (by rw [h2]) (by rw [h3]) (by rw [h4]) (by rw [h5])

/-- The state after a result from rank `r` has been taken and added. -/
theorem collected {c : Cfg M} {s : St w M} {ph : Fin w → Ph} {sent : ℕ} {r : Fin w} {v : M}
    {t : List (Msg M)} (hP : ∀ q, PhOk c s q (ph q)) (hS : Sums c s ph sent)
    (ho : s.outbox r = .here v :: t) {s' : St w M}
    (h1 : s'.inbox = s.inbox) (h2 : s'.outbox = Function.update s.outbox r t) (h3 : s'.wpc = s.wpc)
    (h4 : s'.cbuf = s.cbuf) (h5 : s'.wbuf = s.wbuf) (h6 : s'.evals = s.evals)
    (h7 : s'.wacc = s.wacc) (h8 : s'.acc = if c.loc then s.acc else s.acc + v) :
    (∀ q, PhOk c s' q (Function.update ph r .idle q)) ∧ Sums c s' (Function.update ph r .idle) sent := by
  have hr := hP r
  cases hp : ph r with
  | res i =>
    rw [hp] at hr
    obtain ⟨hin, hw, m, hm, hg⟩ := hr
    rw [ho] at hm
    obtain ⟨rfl, rfl⟩ := List.cons.inj hm
    have hv : v = c.pay i := hg
    refine ⟨fun q => ?_, ?_, ?_, ?_⟩
    · by_cases e : q = r
      · subst e; simp [PhOk, h1, h2, h3, hin, hw]
      · rw [Function.update_of_ne e]
        exact (hP q).congr (by rw [h1]) (by rw [h2, Function.update_of_ne e]) (by rw [h3])
          (by rw [h4]) (by rw [h5])
    · have a1 := sum_update ph r .idle Ph.toEv
      rw [hp] at a1
      have a1 : ∑ q, (Function.update ph r .idle q).toEv = ∑ q, (ph q).toEv := by
        simpa only [Ph.toEv, add_zero] using a1
      rw [h6, a1]; exact hS.ev
    · have a2 := sum_update ph r .idle (Ph.toAcc c)
      rw [hp] at a2
      have a2 : ∑ q, (Function.update ph r .idle q).toAcc c + c.pay i = ∑ q, (ph q).toAcc c :=
        a2.trans (add_zero _)
      have hacc : s'.acc = s.acc + c.pay i := by
        rw [h8, hv]
        unfold Cfg.pay
        split <;> simp
      rw [← hS.acc, ← a2, hacc]
      abel
    · have a3 := sum_update ph r .idle (Ph.toLoc c)
      rw [hp] at a3
      have a3 : ∑ q, (Function.update ph r .idle q).toLoc c = ∑ q, (ph q).toLoc c := by
        simpa only [Ph.toLoc, add_zero] using a3
      rw [h7, a3]; exact hS.loc
  | _ => rw [hp] at hr; simp_all [PhOk]

/-- `collect` after a successful `test`, field by field. -/
theorem collect_fields (c : Cfg M) (s : St w M) (r : Fin w) :
    (collect c s r).inbox = s.inbox ∧ (collect c s r).outbox = s.outbox ∧
    (collect c s r).wpc = s.wpc ∧ (collect c s r).cbuf = s.cbuf ∧ (collect c s r).wbuf = s.wbuf ∧
    (collect c s r).evals = s.evals ∧ (collect c s r).wacc = s.wacc ∧
    ((collect c s r).acc = if c.loc then s.acc else s.acc + s.rbuf r) ∧
    (collect c s r).rreq = s.rreq := by
  unfold collect
  cases hl : c.loc <;> cases hla : s.last <;> by_cases hi : s.idx < c.S <;> simp [hi, hla]

theorem inv_master {c : Cfg M} (hw : 1 ≤ w) {s s' : St w M} (h : Inv c s)
    (hs : master c s = some s') : Inv c s' := by
  obtain ⟨ph, sent, hP, hS, hM⟩ := h
  unfold master at hs
  unfold MasterOk at hM
  cases hpc : s.pc with
  | start =>
    simp only [hpc] at hs hM
    obtain ⟨hk, h0, hi, hr⟩ := hM
    split at hs
    · rename_i hle
      obtain rfl := Option.some.inj hs
      refine ⟨ph, sent, phOk_all hP rfl rfl rfl rfl rfl, ⟨hS.ev, hS.acc, hS.loc⟩, ?_⟩
      simp [MasterOk, hle, h0, hi, hr, hk]
    · rename_i hle
      obtain rfl := Option.some.inj hs
      refine ⟨ph, sent, phOk_all hP rfl rfl rfl rfl rfl, ⟨hS.ev, hS.acc, hS.loc⟩, ?_⟩
      simp only [MasterOk]; omega
  | initSend r =>
    simp only [hpc] at hs hM
    obtain ⟨hle, hrw, hi, hsent, hk, hr⟩ := hM
    split at hs
    · rename_i hlt
      rw [if_pos (show s.idx < c.S by omega)] at hs
      obtain rfl := Option.some.inj hs
      have hfr : (ph ⟨r, hlt⟩).cls = .fresh := by
        have := hk ⟨r, hlt⟩
        simpa using this
      obtain ⟨e1, e2, e3⟩ := quiet_toEv (p := ph ⟨r, hlt⟩) c (by rw [hfr]; decide)
      refine ⟨Function.update ph ⟨r, hlt⟩ (.idx sent), sent + 1,
        phOk_post (v := s.idx) hP rfl rfl rfl rfl rfl ?_, hS.assign ⟨r, hlt⟩ rfl rfl rfl e1 e2 e3, ?_⟩
      · refine phOk_idx (hP ⟨r, hlt⟩) (Or.inl hfr) rfl rfl rfl ?_
        rw [show sent = s.idx by omega]; rfl
      · simp only [MasterOk]
        refine ⟨hle, hlt, hi, by rw [hsent], fun q => ?_, hr⟩
        by_cases e : q = ⟨r, hlt⟩
        · subst e; simp [Ph.cls]
        · rw [Function.update_of_ne e, hk q]
          have : (q : ℕ) ≠ r := fun h => e (Fin.ext h)
          have : (q : ℕ) < r ↔ (q : ℕ) < r + 1 := by omega
          simp [this]
    · rename_i hlt
      obtain rfl := Option.some.inj hs
      have hrw' : r = w := by omega
      subst hrw'
      refine ⟨ph, sent, phOk_all hP rfl rfl rfl rfl rfl, ⟨hS.ev, hS.acc, hS.loc⟩, ?_⟩
      simp only [MasterOk]
      refine ⟨hle, Nat.zero_le _, hi, hsent, fun q => ?_, fun q => by rw [hr q]; simp⟩
      rw [hk q, if_pos q.2]
  | initWait r =>
    simp only [hpc] at hs hM
    obtain ⟨hle, hrw, hi, hsent, hk, hr⟩ := hM
    rw [dif_pos hrw] at hs
    split at hs
    · obtain rfl := Option.some.inj hs
      refine ⟨ph, sent, phOk_all hP rfl rfl rfl rfl rfl, ⟨hS.ev, hS.acc, hS.loc⟩, ?_⟩
      simp only [MasterOk]
      exact ⟨hle, hrw, by rw [hi], hsent, hk, hr⟩
    · cases hs
  | initRecv r =>
    simp only [hpc] at hs hM
    obtain ⟨hle, hrw, hi, hsent, hk, hr⟩ := hM
    split at hs
    · rename_i hlt
      have : s.rreq ⟨r, hlt⟩ = false := by rw [hr]; simp
      simp only [this, Bool.false_eq_true, if_false] at hs
      obtain rfl := Option.some.inj hs
      refine ⟨ph, sent, phOk_all hP rfl rfl rfl rfl rfl, ⟨hS.ev, hS.acc, hS.loc⟩, ?_⟩
      simp only [MasterOk]
      refine ⟨hle, hlt, hi, hsent, hk, fun q => ?_⟩
      by_cases e : q = ⟨r, hlt⟩
      · subst e; simp
      · rw [Function.update_of_ne e, hr q]
        have : (q : ℕ) ≠ r := fun h => e (Fin.ext h)
        have : (q : ℕ) < r ↔ (q : ℕ) < r + 1 := by omega
        simp [this]
    · rename_i hlt
      obtain rfl := Option.some.inj hs
      have hrw' : r = w := by omega
      subst hrw'
      refine ⟨ph, sent, phOk_all hP rfl rfl rfl rfl rfl, ⟨hS.ev, hS.acc, hS.loc⟩, ?_⟩
      simp only [MasterOk]
      refine ⟨⟨hle, by simp only [hi, hsent]; omega, by simp, fun q _ => hk q, fun q => by
        rw [hr q]; simp, by simp⟩, by simp, fun _ => Or.inl ⟨by simp only [hi]; omega, by simp⟩⟩
  | top =>
    simp only [hpc] at hs hM
    obtain ⟨hL, hl1, hl2⟩ := hM
    split at hs
    · rename_i hcond
      obtain rfl := Option.some.inj hs
      refine ⟨ph, sent, phOk_all hP rfl rfl rfl rfl rfl, ⟨hS.ev, hS.acc, hS.loc⟩, ?_⟩
      simp only [MasterOk]
      refine ⟨Nat.zero_le _, ⟨hL.le, hL.hsent, hL.fin, hL.act, hL.req, hL.over⟩, hl1, fun hlast => ?_⟩
      rcases hl2 hlast with h | h
      · exact h
      · exfalso
        have := hL.over ⟨⟨0, hw⟩, h _⟩
        rcases hcond with h' | h'
        · omega
        · rw [hlast] at h'; cases h'
    · rename_i hcond
      obtain rfl := Option.some.inj hs
      push Not at hcond
      have hlast : s.last = false := by simpa using hcond.2
      have hall : ∀ r, s.finish r = true := by
        rcases hl2 hlast with h | h
        · omega
        · exact h
      refine ⟨ph, sent, phOk_all hP rfl rfl rfl rfl rfl, ⟨hS.ev, hS.acc, hS.loc⟩, ?_⟩
      simp only [MasterOk]
      refine ⟨Nat.zero_le _, by rw [hL.hsent]; omega, fun q => by rw [hL.req, hall]; rfl, fun q => ?_⟩
      simpa using hL.fin q (hall q)
  | sweep r =>
    simp only [hpc] at hs hM
    obtain ⟨hrw, hL, hl1, hl2⟩ := hM
    split at hs
    · rename_i hlt
      by_cases hreq : s.rreq ⟨r, hlt⟩ = true
      · have hfin : s.finish ⟨r, hlt⟩ = false := by
          have := hL.req ⟨r, hlt⟩
          rw [hreq] at this
          simpa using this.symm
        by_cases hhere : ∃ v t, s.outbox ⟨r, hlt⟩ = .here v :: t
        · obtain ⟨v, t, ho⟩ := hhere
          have ht : test s ⟨r, hlt⟩ = (true, { s with
              rreq := Function.update s.rreq ⟨r, hlt⟩ false,
              rbuf := Function.update s.rbuf ⟨r, hlt⟩ v,
              outbox := Function.update s.outbox ⟨r, hlt⟩ t }) := by
            simp [test, hreq, ho]
          rw [ht] at hs
          simp only [hfin, and_self, if_true] at hs
          obtain rfl := Option.some.inj hs
          obtain ⟨f1, f2, f3, f4, f5, f6, f7, f8, f9⟩ := collect_fields c { s with
              rreq := Function.update s.rreq ⟨r, hlt⟩ false,
              rbuf := Function.update s.rbuf ⟨r, hlt⟩ v,
              outbox := Function.update s.outbox ⟨r, hlt⟩ t } ⟨r, hlt⟩
          obtain ⟨g1, g2⟩ := collected hP hS ho f1 f2 f3 f4 f5 f6 f7 (by rw [f8]; simp)
          refine ⟨_, sent, g1, g2, ?_⟩
          by_cases hi : s.idx < c.S
          · -- another index will be handed out
            have hlast : s.last = false := by
              by_contra h
              have := hl1 (by simpa using h)
              omega
            obtain ⟨-, hnone⟩ := hl2 hlast
            have hc : collect c { s with
              rreq := Function.update s.rreq ⟨r, hlt⟩ false,
              rbuf := Function.update s.rbuf ⟨r, hlt⟩ v,
              outbox := Function.update s.outbox ⟨r, hlt⟩ t } ⟨r, hlt⟩ = { s with
              rreq := Function.update s.rreq ⟨r, hlt⟩ false,
              rbuf := Function.update s.rbuf ⟨r, hlt⟩ v,
              outbox := Function.update s.outbox ⟨r, hlt⟩ t,
              acc := if c.loc then s.acc else s.acc + v, pc := .waitIdx r } := by
              unfold collect
              cases hl : c.loc <;> simp [hlast, hi]
            rw [hc]
            simp only [MasterOk]
            refine ⟨hlt, hL.le, by rw [hL.hsent]; omega, hi, hlast, hnone, fun q => ?_, fun q => ?_⟩
            · by_cases e : q = ⟨r, hlt⟩
              · subst e; simp [Ph.cls]
              · rw [Function.update_of_ne e]
                have : (q : ℕ) ≠ r := fun h => e (Fin.ext h)
                rw [if_neg this]
                exact hL.act q (hnone q)
            · by_cases e : q = ⟨r, hlt⟩
              · subst e; simp
              · rw [Function.update_of_ne e, hL.req, hnone]
                have : (q : ℕ) ≠ r := fun h => e (Fin.ext h)
                simp [this]
          · have hc : collect c { s with
              rreq := Function.update s.rreq ⟨r, hlt⟩ false,
              rbuf := Function.update s.rbuf ⟨r, hlt⟩ v,
              outbox := Function.update s.outbox ⟨r, hlt⟩ t } ⟨r, hlt⟩ = { s with
              rreq := Function.update s.rreq ⟨r, hlt⟩ false,
              rbuf := Function.update s.rbuf ⟨r, hlt⟩ v,
              outbox := Function.update s.outbox ⟨r, hlt⟩ t,
              acc := if c.loc then s.acc else s.acc + v,
              finish := Function.update s.finish ⟨r, hlt⟩ true, last := true, idx := s.idx + 1,
              pc := .sweep (r + 1) } := by
              unfold collect
              cases hl : c.loc <;> cases s.last <;> simp [hi]
            rw [hc]
            simp only [MasterOk]
            refine ⟨hlt, ⟨hL.le, by rw [hL.hsent]; simp only; omega, fun q hq => ?_, fun q hq => ?_,
              fun q => ?_, fun _ => by simp only; omega⟩, fun _ => by omega, by simp⟩
            · by_cases e : q = ⟨r, hlt⟩
              · subst e; simp [Ph.cls]
              · simp only [Function.update_of_ne e] at hq ⊢
                exact hL.fin q hq
            · by_cases e : q = ⟨r, hlt⟩
              · subst e; simp at hq
              · simp only [Function.update_of_ne e] at hq ⊢
                exact hL.act q hq
            · by_cases e : q = ⟨r, hlt⟩
              · subst e; simp
              · simp only [Function.update_of_ne e]
                exact hL.req q
        · have ht : test s ⟨r, hlt⟩ = (false, s) := by
            unfold test
            rw [if_pos hreq]
            split
            · rename_i v t ho
              exact (hhere ⟨v, t, ho⟩).elim
            · rfl
          rw [ht] at hs
          simp only [Bool.false_eq_true, false_and, if_false] at hs
          obtain rfl := Option.some.inj hs
          refine ⟨ph, sent, phOk_all hP rfl rfl rfl rfl rfl, ⟨hS.ev, hS.acc, hS.loc⟩, ?_⟩
          simp only [MasterOk]
          exact ⟨hlt, ⟨hL.le, hL.hsent, hL.fin, hL.act, hL.req, hL.over⟩, hl1, hl2⟩
      · have hfin : s.finish ⟨r, hlt⟩ = true := by
          have := hL.req ⟨r, hlt⟩
          simp only [Bool.not_eq_true] at hreq
          rw [hreq] at this
          simpa using this.symm
        have ht : test s ⟨r, hlt⟩ = (true, s) := by
          unfold test
          rw [if_neg hreq]
        rw [ht] at hs
        simp only [hfin, Bool.true_eq_false, and_false, if_false] at hs
        obtain rfl := Option.some.inj hs
        refine ⟨ph, sent, phOk_all hP rfl rfl rfl rfl rfl, ⟨hS.ev, hS.acc, hS.loc⟩, ?_⟩
        simp only [MasterOk]
        exact ⟨hlt, ⟨hL.le, hL.hsent, hL.fin, hL.act, hL.req, hL.over⟩, hl1, hl2⟩
    · obtain rfl := Option.some.inj hs
      refine ⟨ph, sent, phOk_all hP rfl rfl rfl rfl rfl, ⟨hS.ev, hS.acc, hS.loc⟩, ?_⟩
      simp only [MasterOk]
      exact ⟨⟨hL.le, hL.hsent, hL.fin, hL.act, hL.req, hL.over⟩, hl1, hl2⟩
  | waitIdx r =>
    simp only [hpc] at hs hM
    obtain ⟨hlt, hle, hsent, hi, hlast, hnone, hk, hr⟩ := hM
    rw [dif_pos hlt] at hs
    split at hs
    · have hrq : s.rreq ⟨r, hlt⟩ = false := by rw [hr]; simp
      have hid : (ph ⟨r, hlt⟩).cls = .idle := by
        have := hk ⟨r, hlt⟩
        simpa using this
      rw [if_neg (by simp [postIdx, hrq])] at hs
      obtain rfl := Option.some.inj hs
      obtain ⟨e1, e2, e3⟩ := quiet_toEv (p := ph ⟨r, hlt⟩) c (by rw [hid]; decide)
      refine ⟨Function.update ph ⟨r, hlt⟩ (.idx sent), sent + 1,
        phOk_post (v := s.idx) hP rfl rfl rfl rfl rfl ?_, hS.assign ⟨r, hlt⟩ rfl rfl rfl e1 e2 e3, ?_⟩
      · refine phOk_idx (hP ⟨r, hlt⟩) (Or.inr hid) rfl rfl rfl ?_
        rw [hsent]; rfl
      · simp only [MasterOk, postIdx]
        refine ⟨hlt, ⟨hle, by simp only; omega, ?_, fun q _ => ?_, fun q => ?_, ?_⟩, ?_, ?_⟩
        · intro q hq; rw [hnone] at hq; cases hq
        · by_cases e : q = ⟨r, hlt⟩
          · subst e; simp [Ph.cls]
          · rw [Function.update_of_ne e, hk q]
            have : (q : ℕ) ≠ r := fun h => e (Fin.ext h)
            simp [this]
        · by_cases e : q = ⟨r, hlt⟩
          · subst e; simp [hnone]
          · simp only [Function.update_of_ne e]
            rw [hr, hnone]
            have : (q : ℕ) ≠ r := fun h => e (Fin.ext h)
            simp [this]
        · rintro ⟨q, hq⟩; rw [hnone] at hq; cases hq
        · intro h; rw [hlast] at h; cases h
        · intro _; exact ⟨hi, hnone⟩
    · cases hs
  | endSweep =>
    simp only [hpc] at hs hM
    obtain ⟨hL, hl1, hl2⟩ := hM
    obtain rfl := Option.some.inj hs
    refine ⟨ph, sent, phOk_all hP rfl rfl rfl rfl rfl, ⟨hS.ev, hS.acc, hS.loc⟩, ?_⟩
    simp only [MasterOk]
    refine ⟨⟨hL.le, hL.hsent, hL.fin, hL.act, hL.req, hL.over⟩, ?_, ?_⟩
    · intro h
      cases hla : s.last
      · simp [hla] at h
      · exact hl1 hla
    · intro h
      cases hla : s.last
      · exact Or.inl (hl2 hla)
      · simp only [hla, if_true, decide_eq_false_iff_not] at h
        exact Or.inr fun q => by
          by_contra hq
          exact h ⟨q, by simpa using hq⟩
  | finSend r =>
    simp only [hpc] at hs hM
    obtain ⟨hrw, hsent, hr, hk⟩ := hM
    split at hs
    · rename_i hlt
      split at hs
      · have hid : (ph ⟨r, hlt⟩).cls = .idle := by
          have := hk ⟨r, hlt⟩
          simpa using this
        obtain rfl := Option.some.inj hs
        obtain ⟨e1, e2, e3⟩ := quiet_toEv (p := ph ⟨r, hlt⟩) c (by rw [hid]; decide)
        refine ⟨Function.update ph ⟨r, hlt⟩ .fin, sent,
          phOk_post (v := -1) hP rfl rfl rfl rfl rfl (phOk_fin (hP ⟨r, hlt⟩) hid rfl rfl rfl rfl),
          hS.move ⟨r, hlt⟩ _ rfl rfl rfl (by rw [e1]; rfl) (by rw [e2]; rfl) (by rw [e3]; rfl), ?_⟩
        simp only [MasterOk]
        refine ⟨hlt, hsent, hr, fun q => ?_⟩
        by_cases e : q = ⟨r, hlt⟩
        · subst e; simp [Ph.cls]
        · rw [Function.update_of_ne e, hk q]
          have : (q : ℕ) ≠ r := fun h => e (Fin.ext h)
          have : (q : ℕ) < r ↔ (q : ℕ) < r + 1 := by omega
          simp [this]
      · cases hs
    · rename_i hlt
      obtain rfl := Option.some.inj hs
      refine ⟨ph, sent, phOk_all hP rfl rfl rfl rfl rfl, ⟨hS.ev, hS.acc, hS.loc⟩, ?_⟩
      simp only [MasterOk]
      refine ⟨Nat.zero_le _, hsent, hr, fun q => ?_⟩
      rw [hk q, if_pos (by omega)]
  | finWait r =>
    simp only [hpc] at hs hM
    obtain ⟨hrw, hsent, hr, hk⟩ := hM
    split at hs
    · rename_i hlt
      have ht : test s ⟨r, hlt⟩ = (true, s) := by simp [test, hr]
      rw [ht] at hs
      simp only at hs
      split at hs
      · obtain rfl := Option.some.inj hs
        refine ⟨ph, sent, phOk_all hP rfl rfl rfl rfl rfl, ⟨hS.ev, hS.acc, hS.loc⟩, ?_⟩
        simp only [MasterOk]
        exact ⟨hlt, hsent, hr, hk⟩
      · cases hs
    · obtain rfl := Option.some.inj hs
      refine ⟨ph, sent, phOk_all hP rfl rfl rfl rfl rfl, ⟨hS.ev, hS.acc, hS.loc⟩, ?_⟩
      simp only [MasterOk]
      exact ⟨hsent, hr, hk⟩
  | done => simp only [hpc] at hs; cases hs
  | abort => simp only [hpc] at hs; cases hs

theorem inv_step {c : Cfg M} (hw : 1 ≤ w) {s : St w M} (h : Inv c s) (a : Act w) :
    Inv c (step c s a) := by
  unfold step
  cases hs : act c s a with
  | none => exact h
  | some s' =>
    cases a with
    | master => exact inv_master hw h hs
    | worker r => exact inv_worker h hs
    | moveIdx r => exact inv_moveIdx h hs
    | moveRes r => exact inv_moveRes h hs

theorem inv_exec {c : Cfg M} (hw : 1 ≤ w) (l : List (Act w)) {s : St w M} (h : Inv c s) :
    Inv c (exec c s l) := by
  induction l generalizing s with
  | nil => exact h
  | cons a l ih => exact ih (inv_step hw h a)

end Hiop.PriDec
