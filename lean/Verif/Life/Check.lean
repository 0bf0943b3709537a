import Verif.Life.Model
import Mathlib.Data.Nat.Bitwise
import Mathlib.Algebra.BigOperators.Ring.Finset
import Mathlib.Data.Fintype.Prod
import Mathlib.Tactic.Tauto

/-!
# A verified analysis of pointer programs

`chk` follows every path of a program on descriptions `A` of heaps; `chk_sound` says that whatever it computes
is true of every execution. Loops are followed until no new description appears, so the result covers any number
of repetitions. Used by `Verif.Life.Props` only; the theorems there speak about `Exec`.
-/

namespace Hiop.Life

def allV : List V :=
  [.itCurr, .itTrial, .dir, .c, .d, .gradF, .jacC, .jacD, .hess, .resid, .cTrial, .dTrial, .gradTrial,
   .jacCTrial, .jacDTrial, .residTrial, .logbar, .duals, .cSoc, .dSoc, .socDir, .pd, .fa, .kkt, .updater, .nlpFR,
   .kktPd, .kktFa, .faPd]

instance : Fintype V := ⟨⟨allV, by decide⟩, by intro v; cases v <;> decide⟩

/-- A number for every pointer. -/
def key : Var → ℕ
  | (false, v) => v.ctorIdx
  | (true, v) => v.ctorIdx + 32

theorem key_inj : ∀ v w : Var, key v = key w → v = w := by decide +kernel

/-! Sets of pointers are numbers in binary: bit `key v` says whether `v` belongs to the set. -/

def has (m : ℕ) (v : Var) : Bool := m.testBit (key v)
def add (m : ℕ) (v : Var) : ℕ := m ||| (1 <<< key v)
def rem (m : ℕ) (v : Var) : ℕ := if has m v then m ^^^ (1 <<< key v) else m

theorem bit_key (v w : Var) : (1 <<< key v).testBit (key w) = decide (w = v) := by
  rw [Nat.one_shiftLeft, Nat.testBit_two_pow]
  exact decide_eq_decide.2 ⟨fun h => (key_inj _ _ h).symm, fun h => by rw [h]⟩

theorem has_add {m : ℕ} {v w : Var} : has (add m v) w = true ↔ w = v ∨ has m w = true := by
  unfold has add
  rw [Nat.testBit_or, bit_key]
  simp only [Bool.or_eq_true, decide_eq_true_eq]; tauto

theorem has_rem {m : ℕ} {v w : Var} : has (rem m v) w = true ↔ has m w = true ∧ w ≠ v := by
  unfold rem
  split
  · rename_i hv
    by_cases h : w = v
    · subst h
      unfold has at hv ⊢
      rw [Nat.testBit_xor, bit_key, hv]; simp
    · unfold has
      rw [Nat.testBit_xor, bit_key]; simp [h]
  · rename_i hv
    constructor
    · intro h; exact ⟨h, by rintro rfl; exact hv h⟩
    · exact fun h => h.1

/-- A description of heaps. -/
structure A where
  /-- these point to existing objects, pairwise different -/
  own : ℕ
  /-- these are null -/
  nul : ℕ
  /-- these are null or point to objects that were deleted -/
  free : ℕ
  /-- only these may have been overwritten while they pointed to an existing object -/
  ov : ℕ
  /-- equal pointers -/
  ali : List (ℕ × ℕ)

/-- The pointers of a set. -/
def set (m : ℕ) : Finset Var := Finset.univ.filter fun v => has m v = true

theorem mem_set {m : ℕ} {v : Var} : v ∈ set m ↔ has m v = true := by simp [set]

/-- What a description says about a heap. -/
structure A.Holds (a : A) (s : St) : Prop where
  own : ∀ v, has a.own v = true → ∃ p ∈ s.live, s.env v = some p
  inj : ∀ v, has a.own v = true → ∀ w, has a.own w = true → s.env v = s.env w → v = w
  nul : ∀ v, has a.nul v = true → s.env v = none
  free : ∀ v, has a.free v = true → s.env v = none ∨ ∃ p, s.env v = some p ∧ p ∉ s.live ∧ p < s.next
  ali : ∀ q ∈ a.ali, ∃ v w, q = (key v, key w) ∧ s.env v = s.env w
  bound : ∀ p ∈ s.live, p < s.next
  ov : ∀ v, has a.ov v = false → s.over v = 0
  card : s.live.card = (set a.own).card + ∑ v, s.over v

/-- Remove the equalities about a pointer. -/
def drop (k : ℕ) : List (ℕ × ℕ) → List (ℕ × ℕ)
  | [] => []
  | q :: l => if Nat.beq q.1 k || Nat.beq q.2 k then drop k l else q :: drop k l

def aNew (v : Var) (a : A) : Option A :=
  if has a.own v then some { a with ov := add a.ov v, ali := drop (key v) a.ali }
  else if has a.nul v || has a.free v then
    some { a with own := add a.own v, nul := rem a.nul v, free := rem a.free v, ali := drop (key v) a.ali }
  else none

def aDel (v : Var) (a : A) : Option A :=
  if has a.own v then some { a with own := rem a.own v, free := add a.free v, ali := drop (key v) a.ali }
  else if has a.nul v then some a else none

def aNull (v : Var) (a : A) : Option A :=
  if has a.own v then none
  else some { a with nul := add a.nul v, free := add a.free v, ali := drop (key v) a.ali }

def aCopy (v w : Var) (a : A) : Option A :=
  if has a.own v then none
  else if has a.own w then
    some { a with nul := rem a.nul v, free := rem a.free v, ali := (key v, key w) :: drop (key v) a.ali }
  else none

def aSwap (v w : Var) (a : A) : Option A :=
  if has a.own v && has a.own w && !Nat.beq (key v) (key w) then
    some { a with ali := drop (key v) (drop (key w) a.ali) } else none

def aUse (v : Var) (a : A) : Option A :=
  if has a.own v || a.ali.any (fun q => Nat.beq q.1 (key v) && a.own.testBit q.2) then some a else none

/-- Is the equality in the list? -/
def inAli (q : ℕ × ℕ) : List (ℕ × ℕ) → Bool
  | [] => false
  | r :: l => (Nat.beq q.1 r.1 && Nat.beq q.2 r.2) || inAli q l

theorem inAli_iff {q : ℕ × ℕ} {l : List (ℕ × ℕ)} : inAli q l = true ↔ q ∈ l := by
  induction l with
  | nil => simp [inAli]
  | cons r l ih => simp [inAli, ih, Prod.ext_iff]

/-- `a` says at least as much as `b`. -/
def A.le (a b : A) : Bool :=
  Nat.beq a.own b.own && Nat.beq (a.nul &&& b.nul) b.nul && Nat.beq (a.free &&& b.free) b.free &&
  Nat.beq (a.ov ||| b.ov) b.ov && b.ali.all fun q => inAli q a.ali

/-- What `a` and `b`, with the same `own`, have in common. -/
def A.join (a b : A) : A :=
  ⟨b.own, a.nul &&& b.nul, a.free &&& b.free, a.ov ||| b.ov, b.ali.filter fun q => inAli q a.ali⟩

theorem A.Holds.le {a b : A} {s : St} (h : a.Holds s) (hl : a.le b = true) : b.Holds s := by
  unfold A.le at hl
  simp only [Bool.and_eq_true, Nat.beq_eq, List.all_eq_true] at hl
  obtain ⟨⟨⟨⟨h1, h2⟩, h3⟩, h4⟩, h5⟩ := hl
  have sub : ∀ {m n : ℕ} {v : Var}, m &&& n = n → has n v = true → has m v = true := by
    intro m n v e hn
    unfold has at hn ⊢
    rw [← e, Nat.testBit_and, Bool.and_eq_true] at hn
    exact hn.1
  refine ⟨fun v hv => h.own v (h1 ▸ hv), fun v hv w hw => h.inj v (h1 ▸ hv) w (h1 ▸ hw),
    fun v hv => h.nul v (sub h2 hv), fun v hv => h.free v (sub h3 hv), fun q hq => h.ali q (inAli_iff.1 (h5 q hq)),
    h.bound, fun v hv => h.ov v ?_, h1 ▸ h.card⟩
  unfold has at hv ⊢
  rw [← h4, Nat.testBit_or, Bool.or_eq_false_iff] at hv
  exact hv.1

theorem le_join_left {a b : A} (h : a.own = b.own) : a.le (a.join b) = true := by
  unfold A.le A.join
  simp only [Bool.and_eq_true, Nat.beq_eq, List.all_eq_true, List.mem_filter]
  refine ⟨⟨⟨⟨h, ?_⟩, ?_⟩, ?_⟩, fun q hq => hq.2⟩
  · rw [← Nat.and_assoc, Nat.and_self]
  · rw [← Nat.and_assoc, Nat.and_self]
  · rw [← Nat.or_assoc, Nat.or_self]

theorem le_join_right {a b : A} : b.le (a.join b) = true := by
  unfold A.le A.join
  simp only [Bool.and_eq_true, Nat.beq_eq, List.all_eq_true, List.mem_filter]
  refine ⟨⟨⟨⟨trivial, ?_⟩, ?_⟩, ?_⟩, fun q hq => inAli_iff.2 hq.1⟩
  · rw [Nat.and_comm a.nul, ← Nat.and_assoc, Nat.and_self]
  · rw [Nat.and_comm a.free, ← Nat.and_assoc, Nat.and_self]
  · rw [Nat.or_comm a.ov, ← Nat.or_assoc, Nat.or_self]

theorem le_refl (a : A) : a.le a = true := by
  unfold A.le
  simp only [Bool.and_eq_true, Nat.beq_eq, List.all_eq_true, Nat.and_self, Nat.or_self, and_self, true_and]
  exact fun q hq => inAli_iff.2 hq

/-- Descriptions of the heaps at the ends of a program. -/
structure Out where
  norm : List A
  brk : List A
  ret : List A

/-- Add a description, joined to one with the same `own` if there is one. -/
def put (a : A) : List A → List A
  | [] => [a]
  | b :: l => if Nat.beq a.own b.own then a.join b :: l else b :: put a l

/-- Join of two lists. -/
def un (l : List A) : List A → List A
  | [] => l
  | a :: m => un (put a l) m

/-- One of the descriptions holds. -/
def Sat (S : List A) (s : St) : Prop := ∃ a ∈ S, a.Holds s

theorem put_new {a : A} {l : List A} {s : St} (h : a.Holds s) : Sat (put a l) s := by
  induction l with
  | nil => exact ⟨a, List.mem_singleton_self a, h⟩
  | cons b l ih =>
    unfold put
    split
    · rename_i e
      exact ⟨_, List.mem_cons_self, h.le (le_join_left (Nat.beq_eq.mp e))⟩
    · obtain ⟨c, h1, h2⟩ := ih
      exact ⟨c, List.mem_cons_of_mem _ h1, h2⟩

theorem put_old {a : A} {l : List A} {s : St} (h : Sat l s) : Sat (put a l) s := by
  induction l with
  | nil => obtain ⟨b, hb, _⟩ := h; simp at hb
  | cons b l ih =>
    obtain ⟨c, hc, hs⟩ := h
    unfold put
    split
    · rcases List.mem_cons.1 hc with rfl | hc
      · exact ⟨_, List.mem_cons_self, hs.le le_join_right⟩
      · exact ⟨c, List.mem_cons_of_mem _ hc, hs⟩
    · rcases List.mem_cons.1 hc with rfl | hc
      · exact ⟨c, List.mem_cons_self, hs⟩
      · obtain ⟨d, h1, h2⟩ := ih ⟨c, hc, hs⟩
        exact ⟨d, List.mem_cons_of_mem _ h1, h2⟩

theorem un_left {l m : List A} {s : St} (h : Sat l s) : Sat (un l m) s := by
  induction m generalizing l with
  | nil => exact h
  | cons a m ih => exact ih (put_old h)

theorem un_right {l m : List A} {s : St} (h : Sat m s) : Sat (un l m) s := by
  induction m generalizing l with
  | nil => obtain ⟨b, hb, _⟩ := h; simp at hb
  | cons a m ih =>
    obtain ⟨c, hc, hs⟩ := h
    rcases List.mem_cons.1 hc with rfl | hc
    · exact un_left (l := put c l) (put_new hs)
    · exact ih ⟨c, hc, hs⟩

def Out.un (o q : Out) : Out := ⟨Life.un o.norm q.norm, Life.un o.brk q.brk, Life.un o.ret q.ret⟩

/-- The result of an execution is described. -/
def Good (o : Out) : Res → Prop
  | .norm s => Sat o.norm s
  | .brk s => Sat o.brk s
  | .ret s => Sat o.ret s
  | .ub => False

theorem Good.left {o q : Out} {r : Res} (h : Good o r) : Good (o.un q) r := by
  cases r with
  | ub => exact h
  | _ => exact un_left h

theorem Good.right {o q : Out} {r : Res} (h : Good q r) : Good (o.un q) r := by
  cases r with
  | ub => exact h
  | _ => exact un_right h

/-- The union of the results for a list of descriptions. -/
def bindL (f : A → Option Out) : List A → Option Out
  | [] => some ⟨[], [], []⟩
  | a :: l => match f a with
    | none => none
    | some o => match bindL f l with
      | none => none
      | some q => some (o.un q)

theorem bindL_good {f : A → Option Out} {l : List A} {o : Out} (h : bindL f l = some o) {s : St} {r : Res}
    (hf : ∀ a o, f a = some o → a.Holds s → Good o r) (hs : Sat l s) : Good o r := by
  induction l generalizing o with
  | nil => obtain ⟨b, hb, _⟩ := hs; simp at hb
  | cons b l ih =>
    simp only [bindL] at h
    cases hb : f b with
    | none => simp [hb] at h
    | some ob =>
      cases hl : bindL f l with
      | none => simp [hb, hl] at h
      | some ol =>
        simp only [hb, hl, Option.some.injEq] at h
        subst h
        obtain ⟨a, ha, hh⟩ := hs
        rcases List.mem_cons.1 ha with rfl | ha
        · exact (hf a ob hb hh).left
        · exact (ih hl ⟨a, ha, hh⟩).right

/-- Is everything in `l` covered by `m`? -/
def cov (l m : List A) : Bool := l.all fun a => m.any fun b => a.le b

theorem cov_sat {l m : List A} (h : cov l m = true) {s : St} (hs : Sat l s) : Sat m s := by
  obtain ⟨a, ha, hh⟩ := hs
  simp only [cov, List.all_eq_true, List.any_eq_true] at h
  obtain ⟨b, hb, hl⟩ := h a ha
  exact ⟨b, hb, hh.le hl⟩

/-- Follow a loop until its results are covered by its beginnings. -/
def go (f : A → Option Out) : ℕ → List A → Option (List A × Out)
  | 0, _ => none
  | n + 1, S => match bindL f S with
    | none => none
    | some o => if cov o.norm S then some (S, o) else go f n (un S o.norm)

theorem go_spec {f : A → Option Out} (n : ℕ) (S T : List A) (o : Out) (h : go f n S = some (T, o)) :
    bindL f T = some o ∧ cov o.norm T = true ∧ ∀ s, Sat S s → Sat T s := by
  induction n generalizing S with
  | zero => simp [go] at h
  | succ n ih =>
    simp only [go] at h
    cases hb : bindL f S with
    | none => simp [hb] at h
    | some q =>
      simp only [hb] at h
      split at h
      · rename_i hc
        simp only [Option.some.injEq, Prod.mk.injEq] at h
        obtain ⟨rfl, rfl⟩ := h
        exact ⟨hb, hc, fun s hs => hs⟩
      · obtain ⟨h1, h2, h3⟩ := ih _ h
        exact ⟨h1, h2, fun s hs => h3 s (un_left hs)⟩

def one (a : Option A) : Option Out := a.map fun a => ⟨[a], [], []⟩

/-- The analysis. -/
def chk : Cmd → A → Option Out
  | .skip, a => some ⟨[a], [], []⟩
  | .new v, a => one (aNew v a)
  | .del v, a => one (aDel v a)
  | .null v, a => one (aNull v a)
  | .copy v w, a => one (aCopy v w a)
  | .swap v w, a => one (aSwap v w a)
  | .use v, a => one (aUse v a)
  | .seq p q, a => match chk p a with
    | none => none
    | some o => match bindL (chk q) o.norm with
      | none => none
      | some o' => some ⟨o'.norm, un o.brk o'.brk, un o.ret o'.ret⟩
  | .alt p q, a => match chk p a with
    | none => none
    | some o => match chk q a with
      | none => none
      | some o' => some (o.un o')
  | .ifSet v p, a =>
    if has a.own v then chk p a else if has a.nul v then some ⟨[a], [], []⟩ else none
  | .loop p, a => match go (chk p) 50 [a] with
    | none => none
    | some (_, o) => some ⟨o.brk, [], o.ret⟩
  | .brk, a => some ⟨[], [a], []⟩
  | .ret, a => some ⟨[], [], [a]⟩
  | .call p, a => match chk p a with
    | none => none
    | some o => some ⟨un (un o.norm o.brk) o.ret, [], []⟩

/-! ### The single operations -/

theorem mem_drop {v : Var} {l : List (ℕ × ℕ)} {q : ℕ × ℕ} (h : q ∈ drop (key v) l) :
    q ∈ l ∧ q.1 ≠ key v ∧ q.2 ≠ key v := by
  induction l with
  | nil => simp [drop] at h
  | cons r l ih =>
    simp only [drop] at h
    split at h
    · obtain ⟨h1, h2⟩ := ih h; exact ⟨List.mem_cons_of_mem _ h1, h2⟩
    · rename_i hr
      rcases List.mem_cons.1 h with rfl | h
      · refine ⟨List.mem_cons_self, ?_⟩
        simpa [not_or] using hr
      · obtain ⟨h1, h2⟩ := ih h; exact ⟨List.mem_cons_of_mem _ h1, h2⟩

/-- Equalities that do not mention `v` survive a change of `v` only. -/
theorem ali_drop {v : Var} {l : List (ℕ × ℕ)} {e e' : Var → Option ℕ} (hne : ∀ w, w ≠ v → e' w = e w)
    (h : ∀ q ∈ l, ∃ x w, q = (key x, key w) ∧ e x = e w) :
    ∀ q ∈ drop (key v) l, ∃ x w, q = (key x, key w) ∧ e' x = e' w := by
  intro q hq
  obtain ⟨h1, h2, h3⟩ := mem_drop hq
  obtain ⟨x, w, rfl, he⟩ := h q h1
  refine ⟨x, w, rfl, ?_⟩
  rw [hne x (by rintro rfl; exact h2 rfl), hne w (by rintro rfl; exact h3 rfl)]; exact he

theorem set_add {m : ℕ} {v : Var} : set (add m v) = insert v (set m) := by
  ext w; rw [mem_set, has_add, Finset.mem_insert, mem_set]

theorem set_rem {m : ℕ} {v : Var} : set (rem m v) = (set m).erase v := by
  ext w; rw [mem_set, has_rem, Finset.mem_erase, mem_set]; tauto

theorem new_sound {v : Var} {a b : A} {s : St} (h : aNew v a = some b) (hs : a.Holds s) : b.Holds (s.new v) := by
  have fresh : s.next ∉ s.live := fun hn => lt_irrefl _ (hs.bound _ hn)
  have hlive : ∀ p ∈ (s.new v).live, p < (s.new v).next := by
    intro p hp
    simp only [St.new, Finset.mem_insert] at hp ⊢
    rcases hp with rfl | hp
    · omega
    · have := hs.bound p hp; omega
  have hcard : (s.new v).live.card = s.live.card + 1 := by simp [St.new, fresh]
  have hnv : ∀ w, w ≠ v → (s.new v).env w = s.env w := fun w hw => by simp [St.new, Function.update_of_ne hw]
  have hv : (s.new v).env v = some s.next := by simp [St.new]
  have hold : ∀ w p, s.env w = some p → p ∈ s.live → p ≠ s.next := by
    rintro w p _ hp rfl; exact fresh hp
  have hdead : ∀ w, has a.free w = true → w ≠ v → (s.new v).env w = none ∨
      ∃ p, (s.new v).env w = some p ∧ p ∉ (s.new v).live ∧ p < (s.new v).next := by
    intro w hw hwv
    rcases hs.free w hw with h0 | ⟨p, h1, h2, h3⟩
    · exact Or.inl (by rw [hnv w hwv, h0])
    refine Or.inr ⟨p, by rw [hnv w hwv, h1], ?_, by simp [St.new]; omega⟩
    simp only [St.new, Finset.mem_insert, not_or]
    exact ⟨by omega, h2⟩
  have hali := ali_drop hnv hs.ali
  have hown : ∀ w, has a.own w = true → w ≠ v → ∃ p ∈ (s.new v).live, (s.new v).env w = some p ∧ p ≠ s.next := by
    intro w hw hwv
    obtain ⟨p, h1, h2⟩ := hs.own w hw
    exact ⟨p, by simp [St.new, h1], by rw [hnv w hwv, h2], hold w p h2 h1⟩
  have hvl : s.next ∈ (s.new v).live := by simp [St.new]
  unfold aNew at h
  split at h
  · rename_i hvo
    simp only [Option.some.injEq] at h
    subst h
    obtain ⟨p0, hp0, he0⟩ := hs.own v hvo
    have hov : (s.new v).over = Function.update s.over v (s.over v + 1) := by
      simp [St.new, he0, hp0]
    -- `v` still owns, but something else
    have hnul : ¬ has a.nul v = true := fun hn => by have := hs.nul v hn; rw [he0] at this; simp at this
    have hdd : ¬ has a.free v = true := fun hn => by
      rcases hs.free v hn with h0 | ⟨p, h1, h2, _⟩
      · rw [he0] at h0; simp at h0
      · rw [he0] at h1; cases h1; exact h2 hp0
    refine ⟨?_, ?_, ?_, ?_, hali, hlive, ?_, ?_⟩
    · intro w hw
      by_cases hwv : w = v
      · subst hwv; exact ⟨_, hvl, hv⟩
      · obtain ⟨p, h1, h2, _⟩ := hown w hw hwv; exact ⟨p, h1, h2⟩
    · intro w hw x hx he
      by_cases hwv : w = v
      · by_cases hxv : x = v
        · rw [hwv, hxv]
        · obtain ⟨p, _, h2, h3⟩ := hown x hx hxv
          rw [hwv, hv, h2] at he; exact absurd (Option.some.inj he).symm h3
      · by_cases hxv : x = v
        · obtain ⟨p, _, h2, h3⟩ := hown w hw hwv
          rw [hxv, hv, h2] at he; exact absurd (Option.some.inj he) h3
        · rw [hnv w hwv, hnv x hxv] at he; exact hs.inj w hw x hx he
    · intro w hw; rw [hnv w (by rintro rfl; exact hnul hw)]; exact hs.nul w hw
    · intro w hw; exact hdead w hw (by rintro rfl; exact hdd hw)
    · intro w hw
      rw [hov]
      have hw' : ¬ (w = v ∨ has a.ov w = true) := fun h' => by
        have := has_add.2 h'
        have hw2 : has (add a.ov v) w = false := hw
        rw [hw2] at this; simp at this
      rw [not_or] at hw'
      rw [Function.update_of_ne hw'.1]
      exact hs.ov w (by simpa using hw'.2)
    · rw [hcard, hs.card, hov, Finset.sum_update_of_mem (Finset.mem_univ v)]
      have := Finset.sum_erase_add Finset.univ s.over (Finset.mem_univ v)
      rw [← Finset.sdiff_singleton_eq_erase] at this
      show _ = (set a.own).card + _
      omega
  · rename_i hvo
    split at h
    · rename_i hnd
      simp only [Option.some.injEq] at h
      subst h
      have hov : (s.new v).over = s.over := by
        rcases Bool.or_eq_true _ _ ▸ hnd with hn | hd
        · simp [St.new, hs.nul v hn]
        · rcases hs.free v hd with h0 | ⟨p, h1, h2, _⟩
          · simp [St.new, h0]
          · simp [St.new, h1, h2]
      refine ⟨?_, ?_, ?_, ?_, hali, hlive, ?_, ?_⟩
      · intro w hw
        by_cases hwv : w = v
        · subst hwv; exact ⟨_, hvl, hv⟩
        · obtain ⟨p, h1, h2, _⟩ := hown w ((has_add.1 hw).resolve_left hwv) hwv; exact ⟨p, h1, h2⟩
      · intro w hw x hx he
        by_cases hwv : w = v
        · by_cases hxv : x = v
          · rw [hwv, hxv]
          · obtain ⟨p, _, h2, h3⟩ := hown x ((has_add.1 hx).resolve_left hxv) hxv
            rw [hwv, hv, h2] at he; exact absurd (Option.some.inj he).symm h3
        · by_cases hxv : x = v
          · obtain ⟨p, _, h2, h3⟩ := hown w ((has_add.1 hw).resolve_left hwv) hwv
            rw [hxv, hv, h2] at he; exact absurd (Option.some.inj he) h3
          · rw [hnv w hwv, hnv x hxv] at he
            exact hs.inj w ((has_add.1 hw).resolve_left hwv) x ((has_add.1 hx).resolve_left hxv) he
      · intro w hw
        have hw := has_rem.1 hw
        rw [hnv w hw.2]; exact hs.nul w hw.1
      · intro w hw
        have hw := has_rem.1 hw
        exact hdead w hw.1 hw.2
      · rw [hov]; exact hs.ov
      · rw [hcard, hs.card, hov]
        show _ = (set (add a.own v)).card + ∑ w, s.over w
        rw [set_add, Finset.card_insert_of_notMem (by rw [mem_set]; exact hvo)]; omega
    · simp at h

theorem del_sound {v : Var} {a b : A} {s : St} (h : aDel v a = some b) (hs : a.Holds s) {r : Res}
    (hr : Exec (.del v) s r) : Good ⟨[b], [], []⟩ r := by
  unfold aDel at h
  split at h
  · rename_i hvo
    simp only [Option.some.injEq] at h
    obtain ⟨p, hp, he⟩ := hs.own v hvo
    cases hr with
    | delNull _ _ h' => rw [he] at h'; simp at h'
    | delUb _ _ q h' hq => rw [he] at h'; cases h'; exact absurd hp hq
    | del _ _ q h' hq =>
      rw [he] at h'; cases h'
      refine ⟨b, List.mem_singleton_self b, ?_⟩
      subst h
      refine ⟨?_, ?_, hs.nul, ?_, ?_, ?_, hs.ov, ?_⟩
      · intro w hw
        obtain ⟨hw1, hw2⟩ := has_rem.1 hw
        obtain ⟨x, hx, hxe⟩ := hs.own w hw1
        refine ⟨x, ?_, hxe⟩
        rw [Finset.mem_erase]
        refine ⟨?_, hx⟩
        rintro rfl
        exact hw2 (hs.inj w hw1 v hvo (by rw [hxe, he]))
      · intro w hw x hx; exact hs.inj w (has_rem.1 hw).1 x (has_rem.1 hx).1
      · intro w hw
        by_cases hwv : w = v
        · subst hwv
          exact Or.inr ⟨p, he, Finset.notMem_erase _ _, hs.bound p hp⟩
        · rcases hs.free w ((has_add.1 hw).resolve_left hwv) with h0 | ⟨x, h1, h2, h3⟩
          · exact Or.inl h0
          · exact Or.inr ⟨x, h1, fun hm => h2 (Finset.mem_of_mem_erase hm), h3⟩
      · exact ali_drop (fun _ _ => rfl) hs.ali
      · intro x hx; exact hs.bound x (Finset.mem_of_mem_erase hx)
      · show (s.live.erase p).card = (set (rem a.own v)).card + ∑ w, s.over w
        have hm : v ∈ set a.own := mem_set.2 hvo
        rw [Finset.card_erase_of_mem hp, hs.card, set_rem, Finset.card_erase_of_mem hm]
        have : 0 < (set a.own).card := Finset.card_pos.2 ⟨v, hm⟩
        omega
  · split at h
    · rename_i hn
      simp only [Option.some.injEq] at h
      subst h
      have he := hs.nul v hn
      cases hr with
      | delNull => exact ⟨a, List.mem_singleton_self a, hs⟩
      | delUb _ _ q h' => rw [he] at h'; simp at h'
      | del _ _ q h' => rw [he] at h'; simp at h'
    · simp at h

theorem null_sound {v : Var} {a b : A} {s : St} (h : aNull v a = some b) (hs : a.Holds s) :
    b.Holds { s with env := Function.update s.env v none } := by
  unfold aNull at h
  split at h
  · simp at h
  · rename_i hvo
    simp only [Option.some.injEq] at h
    subst h
    have hne : ∀ w, w ≠ v → Function.update s.env v none w = s.env w := fun w hw => Function.update_of_ne hw _ _
    have ho : ∀ w, has a.own w = true → w ≠ v := fun w hw e => hvo (e ▸ hw)
    refine ⟨?_, ?_, ?_, ?_, ali_drop hne hs.ali, hs.bound, hs.ov, hs.card⟩
    · intro w hw
      obtain ⟨p, h1, h2⟩ := hs.own w hw
      exact ⟨p, h1, (hne w (ho w hw)).trans h2⟩
    · intro w hw x hx he
      exact hs.inj w hw x hx (((hne w (ho w hw)).symm.trans he).trans (hne x (ho x hx)))
    · intro w hw
      by_cases hwv : w = v
      · subst hwv; exact Function.update_self _ _ _
      · exact (hne w hwv).trans (hs.nul w ((has_add.1 hw).resolve_left hwv))
    · intro w hw
      by_cases hwv : w = v
      · subst hwv; exact Or.inl (Function.update_self _ _ _)
      · rcases hs.free w ((has_add.1 hw).resolve_left hwv) with h0 | ⟨p, h1, h2⟩
        · exact Or.inl ((hne w hwv).trans h0)
        · exact Or.inr ⟨p, (hne w hwv).trans h1, h2⟩

theorem copy_sound {v w : Var} {a b : A} {s : St} (h : aCopy v w a = some b) (hs : a.Holds s) :
    b.Holds { s with env := Function.update s.env v (s.env w) } := by
  unfold aCopy at h
  split at h
  · simp at h
  · rename_i hvo
    split at h
    · rename_i hwo
      simp only [Option.some.injEq] at h
      subst h
      have hne : ∀ x, x ≠ v → Function.update s.env v (s.env w) x = s.env x :=
        fun x hx => Function.update_of_ne hx _ _
      have ho : ∀ x, has a.own x = true → x ≠ v := fun x hx e => hvo (e ▸ hx)
      refine ⟨?_, ?_, ?_, ?_, ?_, hs.bound, hs.ov, hs.card⟩
      · intro x hx
        obtain ⟨p, h1, h2⟩ := hs.own x hx
        exact ⟨p, h1, (hne x (ho x hx)).trans h2⟩
      · intro x hx y hy he
        exact hs.inj x hx y hy (((hne x (ho x hx)).symm.trans he).trans (hne y (ho y hy)))
      · intro x hx
        have hx := has_rem.1 hx
        exact (hne x hx.2).trans (hs.nul x hx.1)
      · intro x hx
        have hx := has_rem.1 hx
        rcases hs.free x hx.1 with h0 | ⟨p, h1, h2⟩
        · exact Or.inl ((hne x hx.2).trans h0)
        · exact Or.inr ⟨p, (hne x hx.2).trans h1, h2⟩
      · intro q hq
        rcases List.mem_cons.1 hq with rfl | hq
        · exact ⟨v, w, rfl, (Function.update_self _ _ _).trans (hne w (ho w hwo)).symm⟩
        · exact ali_drop hne hs.ali q hq
    · simp at h

theorem swap_sound {v w : Var} {a b : A} {s : St} (h : aSwap v w a = some b) (hs : a.Holds s) :
    b.Holds { s with env := Function.update (Function.update s.env v (s.env w)) w (s.env v) } := by
  unfold aSwap at h
  split at h
  · rename_i hvw
    simp only [Bool.and_eq_true, Bool.not_eq_true'] at hvw
    obtain ⟨⟨hvo, hwo⟩, hne⟩ := hvw
    have hne : v ≠ w := fun e => by rw [e] at hne; simp at hne
    simp only [Option.some.injEq] at h
    subst h
    set e := Function.update (Function.update s.env v (s.env w)) w (s.env v) with he
    have ev : e v = s.env w := by
      rw [he, Function.update_of_ne hne, Function.update_self]
    have ew : e w = s.env v := by rw [he, Function.update_self]
    have eo : ∀ x, x ≠ v → x ≠ w → e x = s.env x := fun x h1 h2 => by
      rw [he, Function.update_of_ne h2, Function.update_of_ne h1]
    -- the exchange as a permutation of the names
    have keyv : ∀ x, has a.own x = true → ∃ y, has a.own y = true ∧ e x = s.env y ∧
        (y = if x = v then w else if x = w then v else x) := by
      intro x hx
      by_cases h1 : x = v
      · subst h1; exact ⟨w, hwo, ev, by simp⟩
      · by_cases h2 : x = w
        · subst h2; exact ⟨v, hvo, ew, by simp [h1]⟩
        · exact ⟨x, hx, eo x h1 h2, by simp [h1, h2]⟩
    have hnul : ∀ x, has a.own x = true → ¬ has a.nul x = true := fun x hx hn => by
      obtain ⟨p, _, h2⟩ := hs.own x hx
      rw [hs.nul x hn] at h2; simp at h2
    have hdead : ∀ x, has a.own x = true → ¬ has a.free x = true := fun x hx hn => by
      obtain ⟨p, h1, h2⟩ := hs.own x hx
      rcases hs.free x hn with h0 | ⟨q, h3, h4, _⟩
      · rw [h0] at h2; simp at h2
      · rw [h3] at h2; cases h2; exact h4 h1
    refine ⟨?_, ?_, ?_, ?_, ?_, hs.bound, hs.ov, hs.card⟩
    · intro x hx
      obtain ⟨y, hy, hxy, _⟩ := keyv x hx
      obtain ⟨p, h1, h2⟩ := hs.own y hy
      exact ⟨p, h1, hxy.trans h2⟩
    · intro x hx y hy hxy
      obtain ⟨x', hx', ex, dx⟩ := keyv x hx
      obtain ⟨y', hy', ey, dy⟩ := keyv y hy
      have : x' = y' := hs.inj x' hx' y' hy' (ex.symm.trans (hxy.trans ey))
      rw [dx, dy] at this
      split_ifs at this <;> first | assumption | (subst_vars; rfl) | (subst_vars; tauto)
    · intro x hx
      exact (eo x (fun e => hnul v hvo (e ▸ hx)) (fun e => hnul w hwo (e ▸ hx))).trans (hs.nul x hx)
    · intro x hx
      have e := eo x (fun e => hdead v hvo (e ▸ hx)) (fun e => hdead w hwo (e ▸ hx))
      rcases hs.free x hx with h0 | ⟨p, h1, h2⟩
      · exact Or.inl (e.trans h0)
      · exact Or.inr ⟨p, e.trans h1, h2⟩
    · intro q hq
      obtain ⟨hq1, h1, h2⟩ := mem_drop hq
      obtain ⟨hq2, h3, h4⟩ := mem_drop hq1
      obtain ⟨x, y, rfl, hxy⟩ := hs.ali q hq2
      refine ⟨x, y, rfl, ?_⟩
      exact ((eo x (by rintro rfl; exact h1 rfl) (by rintro rfl; exact h3 rfl)).trans hxy).trans
        (eo y (by rintro rfl; exact h2 rfl) (by rintro rfl; exact h4 rfl)).symm
  · simp at h

theorem use_sound {v : Var} {a b : A} {s : St} (h : aUse v a = some b) (hs : a.Holds s) : b = a ∧ s.ok v := by
  unfold aUse at h
  split at h
  · rename_i hv
    simp only [Option.some.injEq] at h
    refine ⟨h.symm, ?_⟩
    simp only [Bool.or_eq_true, List.any_eq_true, Bool.and_eq_true, Nat.beq_eq] at hv
    rcases hv with hv | ⟨q, hq, h1, h2⟩
    · exact hs.own v hv
    · obtain ⟨x, y, rfl, hxy⟩ := hs.ali q hq
      obtain ⟨p, h3, h4⟩ := hs.own y h2
      have := key_inj x v h1
      subst this
      exact ⟨p, h3, hxy.trans h4⟩
  · simp at h

theorem one_eq {x : Option A} {o : Out} (h : one x = some o) : ∃ b, x = some b ∧ o = ⟨[b], [], []⟩ := by
  cases x with
  | none => simp [one] at h
  | some b => exact ⟨b, rfl, by simpa [one] using h.symm⟩

theorem loop_sound {f : A → Option Out} {p : Cmd} {T : List A} {o : Out}
    (hf : ∀ a o, f a = some o → ∀ s, a.Holds s → ∀ r, Exec p s r → Good o r)
    (hT : bindL f T = some o) (hc : cov o.norm T = true) {s : St} {r : Res} (hr : Exec (.loop p) s r) (hs : Sat T s) :
    Good ⟨o.brk, [], o.ret⟩ r := by
  have step : ∀ s r, Sat T s → Exec p s r → Good o r := fun s r h1 h2 =>
    bindL_good hT (fun a o' ho hh => hf a o' ho s hh r h2) h1
  generalize hq : Cmd.loop p = q at hr
  induction hr with
  | loopAgain h1 _ _ ih =>
    cases hq
    exact ih (cov_sat hc (step _ _ hs h1 : Sat _ _)) rfl
  | loopBrk h1 => cases hq; exact step _ _ hs h1
  | loopRet h1 => cases hq; exact step _ _ hs h1
  | loopUb h1 => cases hq; exact step _ _ hs h1
  | _ => cases hq

/-- The analysis is right about every execution. -/
theorem chk_sound (c : Cmd) : ∀ (a : A) (o : Out), chk c a = some o → ∀ s, a.Holds s → ∀ r, Exec c s r → Good o r := by
  induction c with
  | skip =>
    intro a o h s hs r hr
    simp only [chk, Option.some.injEq] at h; subst h
    cases hr; exact ⟨a, List.mem_singleton_self a, hs⟩
  | new v =>
    intro a o h s hs r hr
    obtain ⟨b, hb, rfl⟩ := one_eq h
    cases hr; exact ⟨b, List.mem_singleton_self b, new_sound hb hs⟩
  | del v =>
    intro a o h s hs r hr
    obtain ⟨b, hb, rfl⟩ := one_eq h
    exact del_sound hb hs hr
  | null v =>
    intro a o h s hs r hr
    obtain ⟨b, hb, rfl⟩ := one_eq h
    cases hr; exact ⟨b, List.mem_singleton_self b, null_sound hb hs⟩
  | copy v w =>
    intro a o h s hs r hr
    obtain ⟨b, hb, rfl⟩ := one_eq h
    cases hr; exact ⟨b, List.mem_singleton_self b, copy_sound hb hs⟩
  | swap v w =>
    intro a o h s hs r hr
    obtain ⟨b, hb, rfl⟩ := one_eq h
    cases hr; exact ⟨b, List.mem_singleton_self b, swap_sound hb hs⟩
  | use v =>
    intro a o h s hs r hr
    obtain ⟨b, hb, rfl⟩ := one_eq h
    obtain ⟨rfl, hok⟩ := use_sound hb hs
    cases hr with
    | use => exact ⟨b, List.mem_singleton_self b, hs⟩
    | useUb _ _ hn => exact absurd hok hn
  | seq p q ihp ihq =>
    intro a o h s hs r hr
    simp only [chk] at h
    cases hp : chk p a with
    | none => simp [hp] at h
    | some o1 =>
      simp only [hp] at h
      cases hq : bindL (chk q) o1.norm with
      | none => simp [hq] at h
      | some o2 =>
        simp only [hq, Option.some.injEq] at h
        subst h
        cases hr with
        | seq h1 h2 =>
          have := bindL_good hq (fun b o3 g hb => ihq b o3 g _ hb _ h2) (ihp a o1 hp s hs _ h1 : Sat _ _)
          cases r with
          | norm s' => exact this
          | brk s' => exact un_right this
          | ret s' => exact un_right this
          | ub => exact this
        | seqStop h1 hn =>
          have := ihp a o1 hp s hs _ h1
          cases r with
          | norm s' => exact absurd rfl (hn s')
          | brk s' => exact un_left this
          | ret s' => exact un_left this
          | ub => exact this
  | alt p q ihp ihq =>
    intro a o h s hs r hr
    simp only [chk] at h
    cases hp : chk p a with
    | none => simp [hp] at h
    | some o1 =>
      cases hq : chk q a with
      | none => simp [hp, hq] at h
      | some o2 =>
        simp only [hp, hq, Option.some.injEq] at h
        subst h
        cases hr with
        | altL h1 => exact (ihp a o1 hp s hs _ h1).left
        | altR h1 => exact (ihq a o2 hq s hs _ h1).right
  | ifSet v p ih =>
    intro a o h s hs r hr
    simp only [chk] at h
    split at h
    · rename_i hv
      cases hr with
      | ifNull hn => obtain ⟨x, _, hx⟩ := hs.own v hv; rw [hn] at hx; simp at hx
      | ifSet _ h1 => exact ih a o h s hs _ h1
    · split at h
      · rename_i hn
        simp only [Option.some.injEq] at h
        subst h
        cases hr with
        | ifNull => exact ⟨a, List.mem_singleton_self a, hs⟩
        | ifSet hx => exact absurd (hs.nul v hn) hx
      · simp at h
  | loop p ih =>
    intro a o h s hs r hr
    simp only [chk] at h
    cases hg : go (chk p) 50 [a] with
    | none => simp [hg] at h
    | some q =>
      obtain ⟨T, o'⟩ := q
      simp only [hg, Option.some.injEq] at h
      subst h
      obtain ⟨h1, h2, h3⟩ := go_spec 50 [a] T o' hg
      exact loop_sound ih h1 h2 hr (h3 s ⟨a, List.mem_singleton_self a, hs⟩)
  | brk =>
    intro a o h s hs r hr
    simp only [chk, Option.some.injEq] at h; subst h
    cases hr; exact ⟨a, List.mem_singleton_self a, hs⟩
  | ret =>
    intro a o h s hs r hr
    simp only [chk, Option.some.injEq] at h; subst h
    cases hr; exact ⟨a, List.mem_singleton_self a, hs⟩
  | call p ih =>
    intro a o h s hs r hr
    simp only [chk] at h
    cases hp : chk p a with
    | none => simp [hp] at h
    | some o1 =>
      simp only [hp, Option.some.injEq] at h
      subst h
      cases hr with
      | callNorm h1 => exact un_left (un_left (ih a o1 hp s hs _ h1 : Sat _ _))
      | callRet h1 => exact un_right (ih a o1 hp s hs _ h1 : Sat _ _)
      | callBrk h1 => exact un_left (un_right (ih a o1 hp s hs _ h1 : Sat _ _))
      | callUb h1 => exact ih a o1 hp s hs _ h1

end Hiop.Life
