import Mathlib.Algebra.BigOperators.Fin
import Mathlib.Algebra.BigOperators.Group.Finset.Basic
import Mathlib.Data.Fintype.Basic
import Mathlib.Data.Set.Basic
import Mathlib.Logic.Function.Basic
import Mathlib.Logic.Relation
import Mathlib.Tactic.Abel
import Mathlib.Tactic.FinCases

/-!
# Parallel loops (`RAJA::forall`), their schedules and their outcomes

The loops of the RAJA backend (src/LinAlg/hiopMatrixRajaSparseTripletImpl.hpp,
hiopVectorRajaImpl.hpp) run their iterations concurrently, in an order the execution policy chooses.
An iteration is modelled by the sequence of its accesses to the arrays it shares with the others; a
loop may execute the accesses of different iterations in any interleaving, and ends when all
iterations have ended. `x += a` on a shared array element is a read and a write, which other
iterations may separate; on a `RAJA::AtomicRef` it is one indivisible access. An assertion that fails
inside an iteration ends the program.

Memory is sequentially consistent; arrays that a loop only reads are arguments of the iteration and
not part of the shared memory. A loop ends before the next statement starts.
-/

namespace Hiop.Raja

open Function

universe u v w

/-- What one iteration does, access by access. -/
inductive Prog (L : Type u) (V : L → Type v) : Type (max u v)
  /-- end of the iteration -/
  | ret : Prog L V
  /-- an assertion has failed -/
  | fail : Prog L V
  /-- load a shared element -/
  | rd (l : L) (k : V l → Prog L V) : Prog L V
  /-- store a shared element -/
  | wr (l : L) (v : V l) (k : Prog L V) : Prog L V
  /-- atomic read-modify-write, `RAJA::AtomicRef` -/
  | rmw (l : L) (f : V l → V l) (k : Prog L V) : Prog L V

/-- Contents of the shared arrays. -/
abbrev Mem {L : Type u} (V : L → Type v) := ∀ l, V l

section
variable {L : Type u} {V : L → Type v} [DecidableEq L] {ι : Type w} [DecidableEq ι]

/-- One access; `none` when the iteration has ended or its assertion has failed. -/
def act : Prog L V → Mem V → Option (Prog L V × Mem V)
  | .ret, _ => none
  | .fail, _ => none
  | .rd l k, m => some (k (m l), m)
  | .wr l v k, m => some (k, update m l v)
  | .rmw l f k, m => some (k, update m l (f (m l)))

/-- One access of some iteration. -/
inductive Step : (ι → Prog L V) × Mem V → (ι → Prog L V) × Mem V → Prop
  | mk (P : ι → Prog L V) (m : Mem V) (i : ι) (p : Prog L V) (m' : Mem V)
      (h : act (P i) m = some (p, m')) : Step (P, m) (update P i p, m')

/-- Any number of accesses. -/
abbrev Exec : (ι → Prog L V) × Mem V → (ι → Prog L V) × Mem V → Prop :=
  Relation.ReflTransGen Step

/-- Some schedule ends with all iterations ended and memory `m'`. -/
def Completes (body : ι → Prog L V) (m m' : Mem V) : Prop :=
  ∃ P, Exec (body, m) (P, m') ∧ ∀ i, P i = .ret

/-- Some schedule reaches a failed assertion. -/
def Aborts (body : ι → Prog L V) (m : Mem V) : Prop :=
  ∃ P m', Exec (body, m) (P, m') ∧ ∃ i, P i = .fail

end

/-! ## Outcomes -/

/-- The possible outcomes of a piece of the program over all schedules; `none` is a failed
assertion. -/
def Out (α : Type u) := Set (Option α)

namespace Out
variable {α : Type u} {β : Type v}

instance : Membership (Option α) (Out α) := ⟨fun s o => Set.Mem s o⟩

/-- A statement without parallelism. -/
def one (a : α) : Out α := fun o => o = some a

/-- A failed assertion outside of a loop. -/
def abort : Out α := fun o => o = none

/-- One statement after the other. -/
def andThen (s : Out α) (f : α → Out β) : Out β := fun o =>
  (o = none ∧ none ∈ s) ∨ ∃ a, some a ∈ s ∧ o ∈ f a

/-- An assertion outside of a loop. -/
def check (c : Prop) [Decidable c] (s : Out α) : Out α := if c then s else abort

@[ext] theorem ext {s t : Out α} (h : ∀ o, o ∈ s ↔ o ∈ t) : s = t := Set.ext h

theorem mem_one (a : α) (o : Option α) : o ∈ one a ↔ o = some a := Iff.rfl
theorem mem_abort (o : Option α) : o ∈ (abort : Out α) ↔ o = none := Iff.rfl
theorem mem_andThen (s : Out α) (f : α → Out β) (o : Option β) :
    o ∈ s.andThen f ↔ (o = none ∧ none ∈ s) ∨ ∃ a, some a ∈ s ∧ o ∈ f a := Iff.rfl

@[simp] theorem one_andThen (a : α) (f : α → Out β) : (one a).andThen f = f a := by
  ext o
  simp [mem_andThen, mem_one]

@[simp] theorem abort_andThen (f : α → Out β) : (abort : Out α).andThen f = abort := by
  ext o
  simp [mem_andThen, mem_abort]

theorem check_pos {c : Prop} [Decidable c] (h : c) (s : Out α) : check c s = s := if_pos h
theorem check_neg {c : Prop} [Decidable c] (h : ¬ c) (s : Out α) : check c s = abort := if_neg h

/-- Equal to the only outcome: every schedule gives it, some schedule gives it. -/
theorem eq_one_iff (s : Out α) (a : α) : s = one a ↔ some a ∈ s ∧ ∀ o ∈ s, o = some a := by
  constructor
  · rintro rfl
    exact ⟨rfl, fun o h => h⟩
  · rintro ⟨h1, h2⟩
    ext o
    exact ⟨h2 o, fun h => by rw [(mem_one a o).1 h]; exact h1⟩

end Out

section
variable {L : Type u} {V : L → Type v} [DecidableEq L]

/-- `RAJA::forall` over `n` iterations. -/
def forallR (n : ℕ) (body : ℕ → Prog L V) (m : Mem V) : Out (Mem V) := fun o =>
  (∃ m', o = some m' ∧ Completes (fun i : Fin n => body i) m m') ∨
    (o = none ∧ Aborts (fun i : Fin n => body i) m)

end

/-! ## Reductions and scans -/

/-- A value a reduction object may hold at the end: the contributions are combined in any order and
grouping, together with any number of copies of the neutral element `e` (the initial values of the
private copies). `RAJA::ReduceSum`, `RAJA::ReduceMax`, `RAJA::ReduceMin`. -/
inductive Combines {α : Type u} (op : α → α → α) (e : α) : List α → α → Prop
  | neutral : Combines op e [] e
  | single (a : α) : Combines op e [a] a
  | node {l r : List α} {a b : α} (hl : Combines op e l a) (hr : Combines op e r b) :
      Combines op e (l ++ r) (op a b)
  | perm {l l' : List α} {a : α} (h : l.Perm l') (hl : Combines op e l a) : Combines op e l' a

/-- `RAJA::inclusive_scan_inplace` with `plus`, over positions `a .. a+n-1` of an array. -/
def inclusiveScan (a n : ℕ) (f : ℕ → ℕ) : ℕ → ℕ := fun i =>
  if a ≤ i ∧ i < a + n then ∑ j ∈ Finset.range (i - a + 1), f (a + j) else f i

/-! ## Running one iteration alone -/

section
variable {L : Type u} {V : L → Type v} [DecidableEq L] {ι : Type w} [DecidableEq ι]

/-- The iteration without interference. -/
def run : Prog L V → Mem V → Option (Mem V)
  | .ret, m => some m
  | .fail, _ => none
  | .rd l k, m => run (k (m l)) m
  | .wr l v k, m => run k (update m l v)
  | .rmw l f k, m => run k (update m l (f (m l)))

/-- The iteration stores only into `W` and loads only from `R` and `W`. -/
def Within (W R : Set L) : Prog L V → Prop
  | .ret => True
  | .fail => True
  | .rd l k => (l ∈ W ∨ l ∈ R) ∧ ∀ v, Within W R (k v)
  | .wr l _ k => l ∈ W ∧ Within W R k
  | .rmw l _ k => l ∈ W ∧ Within W R k

theorem run_agree (W R : Set L) (p : Prog L V) (hp : Within W R p) (m m' : Mem V)
    (h : ∀ l, l ∈ W ∨ l ∈ R → m l = m' l) :
    (run p m = none ∧ run p m' = none) ∨
      ∃ r r', run p m = some r ∧ run p m' = some r' ∧ ∀ l, l ∈ W ∨ l ∈ R → r l = r' l := by
  induction p generalizing m m' with
  | ret => exact Or.inr ⟨m, m', rfl, rfl, h⟩
  | fail => exact Or.inl ⟨rfl, rfl⟩
  | rd l k ih =>
    have e := h l hp.1
    simp only [run, ← e]
    exact ih _ (hp.2 _) m m' h
  | wr l v k ih =>
    refine ih hp.2 _ _ fun x hx => ?_
    by_cases hxl : x = l
    · subst hxl; simp
    · simp [hxl, h x hx]
  | rmw l f k ih =>
    refine ih hp.2 _ _ fun x hx => ?_
    by_cases hxl : x = l
    · subst hxl; simp [h x hx]
    · simp [hxl, h x hx]

/-- An access keeps the iteration within its sets, touches only `W`, and does not change what running
alone yields. -/
theorem act_within {W R : Set L} {p p' : Prog L V} {m m' : Mem V} (hp : Within W R p)
    (h : act p m = some (p', m')) :
    Within W R p' ∧ (∀ l, l ∉ W → m' l = m l) ∧ run p' m' = run p m := by
  cases p with
  | ret => simp [act] at h
  | fail => simp [act] at h
  | rd l k =>
    simp only [act, Option.some.injEq, Prod.mk.injEq] at h
    obtain ⟨rfl, rfl⟩ := h
    exact ⟨hp.2 _, fun _ _ => rfl, rfl⟩
  | wr l v k =>
    simp only [act, Option.some.injEq, Prod.mk.injEq] at h
    obtain ⟨rfl, rfl⟩ := h
    refine ⟨hp.2, fun x hx => ?_, rfl⟩
    have : x ≠ l := fun e => hx (e ▸ hp.1)
    simp [this]
  | rmw l f k =>
    simp only [act, Option.some.injEq, Prod.mk.injEq] at h
    obtain ⟨rfl, rfl⟩ := h
    refine ⟨hp.2, fun x hx => ?_, rfl⟩
    have : x ≠ l := fun e => hx (e ▸ hp.1)
    simp [this]

/-! ## Every schedule can be completed or aborts -/

theorem solo (P : ι → Prog L V) (i : ι) (m : Mem V) :
    ∃ p m', Exec (P, m) (update P i p, m') ∧ (p = .ret ∨ p = .fail) := by
  have key : ∀ (p : Prog L V) (P : ι → Prog L V) (m : Mem V), P i = p →
      ∃ p' m', Exec (P, m) (update P i p', m') ∧ (p' = .ret ∨ p' = .fail) := by
    intro p
    induction p with
    | ret => intro P m h; exact ⟨.ret, m, by rw [← h, update_eq_self], Or.inl rfl⟩
    | fail => intro P m h; exact ⟨.fail, m, by rw [← h, update_eq_self], Or.inr rfl⟩
    | rd l k ih =>
      intro P m h
      obtain ⟨p', m', h1, h2⟩ := ih (m l) (update P i (k (m l))) m (by simp)
      refine ⟨p', m', Relation.ReflTransGen.head (Step.mk P m i _ _ (by rw [h]; rfl)) ?_, h2⟩
      simpa using h1
    | wr l v k ih =>
      intro P m h
      obtain ⟨p', m', h1, h2⟩ := ih (update P i k) (update m l v) (by simp)
      refine ⟨p', m', Relation.ReflTransGen.head (Step.mk P m i _ _ (by rw [h]; rfl)) ?_, h2⟩
      simpa using h1
    | rmw l f k ih =>
      intro P m h
      obtain ⟨p', m', h1, h2⟩ := ih (update P i k) (update m l (f (m l))) (by simp)
      refine ⟨p', m', Relation.ReflTransGen.head (Step.mk P m i _ _ (by rw [h]; rfl)) ?_, h2⟩
      simpa using h1
  exact key (P i) P m rfl

/-- From every point of every schedule the loop can be brought to an end: all iterations end, or an
assertion fails. -/
theorem finishes [Fintype ι] (P : ι → Prog L V) (m : Mem V) :
    (∃ m', Completes P m m') ∨ Aborts P m := by
  have key : ∀ s : Finset ι, (∃ Q m', Exec (P, m) (Q, m') ∧ ∀ i ∈ s, Q i = .ret) ∨ Aborts P m := by
    intro s
    induction s using Finset.induction_on with
    | empty => exact Or.inl ⟨P, m, Relation.ReflTransGen.refl, by simp⟩
    | insert i s hi ih =>
      rcases ih with ⟨Q, m', h1, h2⟩ | h
      · obtain ⟨p, m'', h3, rfl | rfl⟩ := solo Q i m'
        · refine Or.inl ⟨_, m'', h1.trans h3, fun j hj => ?_⟩
          by_cases hji : j = i
          · subst hji; simp
          · rw [update_of_ne hji]
            exact h2 j ((Finset.mem_insert.1 hj).resolve_left hji)
        · exact Or.inr ⟨_, m'', h1.trans h3, i, by simp⟩
      · exact Or.inr h
  rcases key Finset.univ with ⟨Q, m', h1, h2⟩ | h
  · exact Or.inl ⟨m', Q, h1, fun i => h2 i (Finset.mem_univ i)⟩
  · exact Or.inr h

/-! ## Iterations without conflicting accesses -/

/-- **Race freedom.** When no iteration stores what another one loads or stores, every schedule ends
with the memory in which each iteration has been run alone, and no assertion fails that does not fail
when running alone. -/
theorem race_free (body : ι → Prog L V) (W R : ι → Set L) (hin : ∀ i, Within (W i) (R i) (body i))
    (hd : ∀ i j, i ≠ j → ∀ l ∈ W i, l ∉ W j ∧ l ∉ R j) (m0 : Mem V) (r : ι → Mem V)
    (hr : ∀ i, run (body i) m0 = some (r i)) :
    ¬ Aborts body m0 ∧ ∀ m', Completes body m0 m' →
      (∀ i, ∀ l ∈ W i, m' l = r i l) ∧ ∀ l, (∀ i, l ∉ W i) → m' l = m0 l := by
  have inv : ∀ s : (ι → Prog L V) × Mem V, Exec (body, m0) s →
      (∀ i, Within (W i) (R i) (s.1 i)) ∧
      (∀ i, ∃ q, run (s.1 i) s.2 = some q ∧ ∀ l, l ∈ W i ∨ l ∈ R i → q l = r i l) ∧
      ∀ l, (∀ i, l ∉ W i) → s.2 l = m0 l := by
    intro s hs
    induction hs with
    | refl => exact ⟨hin, fun i => ⟨r i, hr i, fun _ _ => rfl⟩, fun _ _ => rfl⟩
    | tail _ hstep ih =>
      obtain ⟨h1, h2, h3⟩ := ih
      cases hstep with
      | mk P m i p m' h =>
        obtain ⟨a1, a2, a3⟩ := act_within (h1 i) h
        refine ⟨fun j => ?_, fun j => ?_, fun l hl => ?_⟩
        · by_cases hj : j = i
          · subst hj; simpa using a1
          · simpa [hj] using h1 j
        · by_cases hj : j = i
          · subst hj
            simp only [update_self, a3]
            exact h2 j
          · simp only [update_of_ne hj]
            obtain ⟨q, hq1, hq2⟩ := h2 j
            have ag : ∀ l, l ∈ W j ∨ l ∈ R j → m l = m' l := by
              intro l hl
              refine (a2 l fun hw => ?_).symm
              obtain ⟨n1, n2⟩ := hd i j (Ne.symm hj) l hw
              exact hl.elim n1 n2
            rcases run_agree (W j) (R j) (P j) (h1 j) m m' ag with ⟨e, _⟩ | ⟨q1, q2, e1, e2, e3⟩
            · rw [hq1] at e; exact absurd e (by simp)
            · rw [hq1] at e1
              cases e1
              exact ⟨q2, e2, fun l hl => by rw [← e3 l hl, hq2 l hl]⟩
        · show m' l = m0 l
          rw [a2 l (hl i)]
          exact h3 l hl
  refine ⟨?_, ?_⟩
  · rintro ⟨P, m', hex, i, hi⟩
    obtain ⟨q, hq, _⟩ := (inv _ hex).2.1 i
    simp only [hi, run] at hq
    exact absurd hq (by simp)
  · rintro m' ⟨P, hex, hP⟩
    obtain ⟨_, h2, h3⟩ := inv _ hex
    refine ⟨fun i l hl => ?_, h3⟩
    obtain ⟨q, hq1, hq2⟩ := h2 i
    simp only [hP i, run, Option.some.injEq] at hq1
    subst hq1
    exact hq2 l (Or.inl hl)

/-! ## Atomic additions -/

end

section
variable {L : Type u} {K : Type v} [DecidableEq L] [AddCommMonoid K]

/-- The iteration only adds to shared elements, atomically; `g l` is what it adds to `l` in total. -/
inductive Adds : Prog L (fun _ => K) → (L → K) → Prop
  | ret : Adds .ret fun _ => 0
  | add (l : L) (c : K) {k : Prog L fun _ => K} {g : L → K} (h : Adds k g) :
      Adds (.rmw l (fun x => x + c) k) fun x => (if x = l then c else 0) + g x

/-- **Atomic additions.** Iterations that only add atomically leave the sum of all contributions,
whatever the schedule. -/
theorem atomic_adds {ι : Type w} [DecidableEq ι] [Fintype ι] (body : ι → Prog L fun _ => K)
    (g : ι → L → K) (hb : ∀ i, Adds (body i) (g i)) (m0 : L → K) :
    ¬ Aborts body m0 ∧ ∀ m', Completes body m0 m' → ∀ l, m' l = m0 l + ∑ i, g i l := by
  have inv : ∀ s : (ι → Prog L fun _ => K) × (L → K), Exec (body, m0) s →
      ∃ g' : ι → L → K, (∀ i, Adds (s.1 i) (g' i)) ∧
        ∀ l, s.2 l + ∑ i, g' i l = m0 l + ∑ i, g i l := by
    intro s hs
    induction hs with
    | refl => exact ⟨g, hb, fun _ => rfl⟩
    | tail _ hstep ih =>
      obtain ⟨g', h1, h2⟩ := ih
      cases hstep with
      | mk P m i p m' h =>
        have hi : Adds (P i) (g' i) := h1 i
        generalize hP : P i = q at h hi
        generalize hg : g' i = gi at hi
        cases hi with
        | ret => simp [act] at h
        | add l c hk =>
          rename_i k gk
          simp only [act, Option.some.injEq, Prod.mk.injEq] at h
          obtain ⟨rfl, rfl⟩ := h
          refine ⟨update g' i gk, fun j => ?_, fun x => ?_⟩
          · by_cases hj : j = i
            · subst hj; simpa using hk
            · simpa [hj] using h1 j
          · rw [← h2 x]
            have e1 : ∑ j, g' j x = g' i x + ∑ j ∈ Finset.univ.erase i, g' j x :=
              (Finset.add_sum_erase _ _ (Finset.mem_univ i)).symm
            have e2 : ∑ j, update g' i gk j x =
                gk x + ∑ j ∈ Finset.univ.erase i, g' j x := by
              rw [← Finset.add_sum_erase _ _ (Finset.mem_univ i)]
              simp only [update_self]
              congr 1
              refine Finset.sum_congr rfl fun j hj => ?_
              rw [update_of_ne (Finset.ne_of_mem_erase hj)]
            simp only [e1, e2, hg]
            by_cases hx : x = l
            · subst hx
              simp only [update_self, if_true]
              abel
            · simp only [update_of_ne hx, if_neg hx]
              abel
  refine ⟨?_, ?_⟩
  · rintro ⟨P, m', hex, i, hi⟩
    obtain ⟨g', h, _⟩ := inv _ hex
    have := h i
    rw [show (P, m').1 i = Prog.fail from hi] at this
    cases this
  · rintro m' ⟨P, hex, hP⟩ l
    obtain ⟨g', h1, h2⟩ := inv _ hex
    rw [← h2 l]
    have : ∀ i, g' i l = 0 := by
      intro i
      have := h1 i
      rw [show (P, m').1 i = Prog.ret from hP i] at this
      generalize g' i = gi at this
      cases this
      rfl
    simp [this]

end

/-! ## Loops with one outcome -/

section
variable {L : Type u} {V : L → Type v} [DecidableEq L]

theorem forallR_one {n : ℕ} {body : ℕ → Prog L V} {m M : Mem V}
    (h1 : ¬ Aborts (fun i : Fin n => body i) m)
    (h2 : ∀ m', Completes (fun i : Fin n => body i) m m' → m' = M) :
    forallR n body m = Out.one M := by
  rw [Out.eq_one_iff]
  constructor
  · rcases finishes (fun i : Fin n => body i) m with ⟨m', h⟩ | h
    · exact Or.inl ⟨M, rfl, by rw [← h2 m' h]; exact h⟩
    · exact absurd h h1
  · rintro o (⟨m', rfl, h⟩ | ⟨_, h⟩)
    · rw [h2 m' h]
    · exact absurd h h1

/-- A race-free loop has exactly one outcome. -/
theorem forallR_race_free {n : ℕ} {body : ℕ → Prog L V} {m : Mem V} (M : Mem V)
    (W R : ℕ → Set L) (r : ℕ → Mem V)
    (hin : ∀ i, i < n → Within (W i) (R i) (body i))
    (hd : ∀ i j, i < n → j < n → i ≠ j → ∀ l ∈ W i, l ∉ W j ∧ l ∉ R j)
    (hr : ∀ i, i < n → run (body i) m = some (r i))
    (hM : ∀ i, i < n → ∀ l ∈ W i, M l = r i l)
    (hM' : ∀ l, (∀ i, i < n → l ∉ W i) → M l = m l) :
    forallR n body m = Out.one M := by
  obtain ⟨h1, h2⟩ := race_free (fun i : Fin n => body i) (fun i => W i) (fun i => R i)
    (fun i => hin i i.2) (fun i j hij => hd i j i.2 j.2 fun e => hij (Fin.ext e)) m (fun i => r i)
    fun i => hr i i.2
  refine forallR_one h1 fun m' hm' => ?_
  obtain ⟨a, b⟩ := h2 m' hm'
  funext l
  by_cases hl : ∃ i, i < n ∧ l ∈ W i
  · obtain ⟨i, hi, hw⟩ := hl
    rw [hM i hi l hw]
    exact a ⟨i, hi⟩ l hw
  · push Not at hl
    rw [hM' l hl]
    exact b l fun i => hl i i.2

/-- A loop in which some iteration fails at its first access can abort. -/
theorem forallR_abort {n : ℕ} {body : ℕ → Prog L V} {m : Mem V} {i : ℕ} (hi : i < n)
    (h : body i = .fail) : none ∈ forallR n body m :=
  Or.inr ⟨rfl, _, m, Relation.ReflTransGen.refl, ⟨i, hi⟩, h⟩

end

section
variable {L : Type u} {K : Type v} [DecidableEq L] [AddCommMonoid K]

/-- A loop of atomic additions has exactly one outcome. -/
theorem forallR_adds {n : ℕ} {body : ℕ → Prog L fun _ => K} (m : L → K) (g : ℕ → L → K)
    (hb : ∀ i, i < n → Adds (body i) (g i)) :
    forallR n body m = Out.one fun l => m l + ∑ i ∈ Finset.range n, g i l := by
  obtain ⟨h1, h2⟩ := atomic_adds (fun i : Fin n => body i) (fun i => g i) (fun i => hb i i.2) m
  refine forallR_one h1 fun m' hm' => ?_
  funext l
  rw [h2 m' hm' l, Finset.sum_range]

/-- **Lost update.** Two iterations with `x += c` on the same element, not atomic: some schedule
keeps only the second contribution. -/
theorem lost_update (m : L → K) (l : L) (c : ℕ → K) (body : ℕ → Prog L fun _ => K)
    (h0 : body 0 = .rd l fun v => .wr l (v + c 0) .ret)
    (h1 : body 1 = .rd l fun v => .wr l (v + c 1) .ret) :
    some (update m l (m l + c 1)) ∈ forallR 2 body m := by
  refine Or.inl ⟨_, rfl, ?_⟩
  let P0 : Fin 2 → Prog L fun _ => K := fun i => body i
  let P1 := update P0 0 (.wr l (m l + c 0) .ret)
  let P2 := update P1 1 (.wr l (m l + c 1) .ret)
  let P3 := update P2 0 .ret
  let P4 := update P3 1 .ret
  have s1 : Step (P0, m) (P1, m) := Step.mk P0 m 0 _ _ (by
    show act (body 0) m = _
    rw [h0]; rfl)
  have s2 : Step (P1, m) (P2, m) := Step.mk P1 m 1 _ _ (by
    have : P1 1 = body 1 := by simp [P1, P0]
    rw [this, h1]; rfl)
  have s3 : Step (P2, m) (P3, update m l (m l + c 0)) := Step.mk P2 m 0 _ _ (by
    have : P2 0 = .wr l (m l + c 0) .ret := by simp [P2, P1]
    rw [this]; rfl)
  have s4 : Step (P3, update m l (m l + c 0)) (P4, update (update m l (m l + c 0)) l (m l + c 1)) :=
    Step.mk P3 _ 1 _ _ (by
      have : P3 1 = .wr l (m l + c 1) .ret := by simp [P3, P2]
      rw [this]; rfl)
  rw [update_idem] at s4
  refine ⟨P4, ((((Relation.ReflTransGen.refl).tail s1).tail s2).tail s3).tail s4, fun i => ?_⟩
  fin_cases i
  · simp [P4, P3]
  · simp [P4]

end

/-! ## Reductions -/

/-- A reduction with an associative and commutative operation has one possible value. `P` are the
values the reduction ranges over. -/
theorem combines_eq {α : Type u} {op : α → α → α} {e : α} (P : α → Prop) (hPe : P e)
    (hP : ∀ a b, P a → P b → P (op a b)) (hc : ∀ a b, op a b = op b a)
    (ha : ∀ a b c, op (op a b) c = op a (op b c)) (he : ∀ a, P a → op e a = a) {l : List α} {a : α}
    (h : Combines op e l a) (hl : ∀ x ∈ l, P x) : a = l.foldr op e := by
  have hPf : ∀ l : List α, (∀ x ∈ l, P x) → P (l.foldr op e) := by
    intro l hl
    induction l with
    | nil => exact hPe
    | cons x l ih =>
      exact hP _ _ (hl x (by simp)) (ih fun y hy => hl y (List.mem_cons_of_mem _ hy))
  have app : ∀ l r : List α, (∀ x ∈ r, P x) →
      (l ++ r).foldr op e = op (l.foldr op e) (r.foldr op e) := by
    intro l r hr
    induction l with
    | nil => simp [he _ (hPf r hr)]
    | cons x l ih => simp [ih, ha]
  induction h with
  | neutral => rfl
  | single a => simp [hc a e, he a (hl a (by simp))]
  | node _ _ h1 h2 =>
    have hr := fun x hx => hl x (List.mem_append_right _ hx)
    rw [app _ _ hr, ← h1 fun x hx => hl x (List.mem_append_left _ hx), ← h2 hr]
  | perm hp _ ih =>
    rw [ih fun x hx => hl x (hp.mem_iff.1 hx)]
    clear ih hl
    rename_i hh
    clear hh
    induction hp with
    | nil => rfl
    | cons x _ ih => simp [ih]
    | swap x y l => simp only [List.foldr_cons]; rw [← ha, ← ha, hc y x]
    | trans _ _ h1 h2 => rw [h1, h2]

theorem combines_exists {α : Type u} (op : α → α → α) (e : α) (l : List α) :
    Combines op e l (l.foldr op e) := by
  induction l with
  | nil => exact Combines.neutral
  | cons x l ih => exact Combines.node (Combines.single x) ih

end Hiop.Raja
