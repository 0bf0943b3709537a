import Verif.Raja.Model
import Verif.Sparse.Assembly
import Mathlib.Tactic.Ring

/-!
# Loops of the RAJA backend: lemmas
-/

set_option linter.unusedSectionVars false
set_option linter.unusedSimpArgs false

namespace Hiop.Raja

open Hiop.Sparse Hiop.Vec Function

/-! ## Loops over single elements -/

section
variable {L : Type} {V : L → Type} [DecidableEq L]

theorem forallR_congr {n : ℕ} {b b' : ℕ → Prog L V} (h : ∀ i, i < n → b i = b' i) (m : Mem V) :
    forallR n b m = forallR n b' m := by
  have : (fun i : Fin n => b i) = fun i : Fin n => b' i := funext fun i => h i i.2
  unfold forallR
  rw [this]

theorem nth_lt {α : Type} {es : List α} {i : ℕ} (h : i < es.length) (f : α → Prog L V) :
    nth es i f = f es[i] := by
  unfold nth
  rw [List.getElem?_eq_getElem h]

/-- Independent stores. -/
theorem forallR_wr {n : ℕ} {body : ℕ → Prog L V} {m : Mem V} (M : Mem V) (loc : ℕ → L)
    (hinj : ∀ i j, i < n → j < n → loc i = loc j → i = j)
    (hb : ∀ i, i < n → body i = .wr (loc i) (M (loc i)) .ret)
    (hM : ∀ l, (∀ i, i < n → loc i ≠ l) → M l = m l) : forallR n body m = Out.one M := by
  rw [forallR_congr hb]
  refine forallR_race_free M (fun i => {loc i}) (fun _ => ∅)
    (fun i => update m (loc i) (M (loc i))) (fun i _ => ⟨rfl, trivial⟩) ?_ (fun i _ => rfl) ?_ ?_
  · intro i j hi hj hij l hl
    rw [Set.mem_singleton_iff] at hl
    subst hl
    exact ⟨fun h => hij (hinj i j hi hj h), fun h => h⟩
  · intro i _ l hl
    rw [Set.mem_singleton_iff] at hl
    subst hl
    simp
  · intro l hl
    exact hM l fun i hi e => hl i hi e.symm

end

section
variable {L : Type} {K : Type} [DecidableEq L]

/-- A list of updates `x = f(x)` of shared elements. -/
def updP : List (L × (K → K)) → Prog L fun _ => K
  | [] => .ret
  | (l, f) :: us => .rd l fun v => .wr l (f v) (updP us)

theorem updP_within (us : List (L × (K → K))) (W : Set L) (h : ∀ u ∈ us, u.1 ∈ W) :
    Within W ∅ (updP us) := by
  induction us with
  | nil => trivial
  | cons u us ih =>
    have h1 := h u List.mem_cons_self
    exact ⟨Or.inl h1, fun v => ⟨h1, ih fun u' hu => h u' (List.mem_cons_of_mem _ hu)⟩⟩

theorem run_updP (us : List (L × (K → K))) (hnd : (us.map Prod.fst).Nodup) (m : L → K) :
    ∃ r : L → K, run (updP us) m = some r ∧ (∀ u ∈ us, r u.1 = u.2 (m u.1)) ∧
      ∀ l, l ∉ us.map Prod.fst → r l = m l := by
  induction us generalizing m with
  | nil => exact ⟨m, rfl, by simp, fun _ _ => rfl⟩
  | cons u us ih =>
    obtain ⟨l, f⟩ := u
    rw [List.map_cons, List.nodup_cons] at hnd
    obtain ⟨r, h1, h2, h3⟩ := ih hnd.2 (update m l (f (m l)))
    refine ⟨r, h1, ?_, fun x hx => ?_⟩
    · intro u hu
      rcases List.mem_cons.1 hu with rfl | hu
      · rw [h3 _ hnd.1]; simp
      · rw [h2 u hu]
        have : u.1 ≠ l := fun e => hnd.1 (List.mem_map.2 ⟨u, hu, e⟩)
        simp [this]
    · rw [List.map_cons, List.mem_cons, not_or] at hx
      rw [h3 x hx.2]
      simp [hx.1]

/-- Loops whose iterations update elements no other iteration touches. -/
theorem forallR_upd {n : ℕ} {body : ℕ → Prog L fun _ => K} {m : L → K} (M : L → K)
    (us : ℕ → List (L × (K → K))) (hb : ∀ i, i < n → body i = updP (us i))
    (hnd : ∀ i, i < n → ((us i).map Prod.fst).Nodup)
    (hd : ∀ i j, i < n → j < n → i ≠ j → ∀ u ∈ us i, ∀ w ∈ us j, u.1 ≠ w.1)
    (hM : ∀ i, i < n → ∀ u ∈ us i, M u.1 = u.2 (m u.1))
    (hM' : ∀ l, (∀ i, i < n → ∀ u ∈ us i, u.1 ≠ l) → M l = m l) :
    forallR n body m = Out.one M := by
  rw [forallR_congr hb]
  have hex : ∀ i, ∃ r : L → K, i < n → run (updP (us i)) m = some r ∧
      (∀ u ∈ us i, r u.1 = u.2 (m u.1)) ∧ ∀ l, l ∉ (us i).map Prod.fst → r l = m l := by
    intro i
    by_cases hi : i < n
    · obtain ⟨r, h⟩ := run_updP (us i) (hnd i hi) m
      exact ⟨r, fun _ => h⟩
    · exact ⟨m, fun h => absurd h hi⟩
  choose r hr using hex
  refine forallR_race_free M (fun i => {l | ∃ u ∈ us i, u.1 = l}) (fun _ => ∅) r
    (fun i _ => updP_within _ _ fun u hu => ⟨u, hu, rfl⟩) ?_ (fun i hi => (hr i hi).1) ?_ ?_
  · rintro i j hi hj hij l ⟨u, hu, rfl⟩
    refine ⟨?_, fun h => h⟩
    rintro ⟨w, hw, e⟩
    exact hd i j hi hj hij u hu w hw e.symm
  · rintro i hi l ⟨u, hu, rfl⟩
    rw [hM i hi u hu, (hr i hi).2.1 u hu]
  · intro l hl
    exact hM' l fun i hi u hu e => hl i hi ⟨u, hu, e⟩

end

section
variable {L : Type} {K : Type} [DecidableEq L] [AddCommMonoid K]

theorem sum_range_list {α : Type} (es : List α) (g : α → K) (G : ℕ → K)
    (hG : ∀ i (h : i < es.length), G i = g es[i]) :
    ∑ i ∈ Finset.range es.length, G i = (es.map g).sum := by
  induction es generalizing G with
  | nil => simp
  | cons e es ih =>
    rw [List.length_cons, Finset.sum_range_succ', List.map_cons, List.sum_cons, add_comm]
    congr 1
    · exact hG 0 (by simp)
    · exact ih _ fun i h => hG (i + 1) (by simpa using h)

/-- Loops over triplets in which every iteration adds atomically. -/
theorem forallR_addList {α : Type} (es : List α) (body : ℕ → Prog L fun _ => K) (m : L → K)
    (g : α → L → K) (h : ∀ i (hi : i < es.length), Adds (body i) (g es[i])) :
    forallR es.length body m = Out.one fun l => m l + (es.map fun e => g e l).sum := by
  rw [forallR_adds m (fun i => if hi : i < es.length then g es[i] else fun _ => 0)]
  · congr 1
    funext l
    congr 1
    exact sum_range_list es (fun e => g e l) _ fun i hi => by simp [hi]
  · intro i hi
    simp only [hi, dif_pos]
    exact h i hi

end

/-! ## Assembly loops -/

section
variable {K : Type}

/-- Position of an element in its array. -/
def TLoc.pos : TLoc → ℕ
  | .row k => k
  | .col k => k
  | .val k => k

/-- The element after `puts` has stored entry `e` at its position. -/
def sel (wi wv : Bool) (e : Ent K) : (l : TLoc) → TV K l → TV K l
  | .row _, o => if wi then e.r else o
  | .col _, o => if wi then e.c else o
  | .val _, o => if wv then e.v else o

theorem puts_within (wi wv : Bool) (ws : List (ℕ × Ent K)) (W : Set TLoc)
    (h : ∀ w ∈ ws, ∀ l : TLoc, l.pos = w.1 → l ∈ W) : Within W ∅ (puts wi wv ws) := by
  induction ws with
  | nil => trivial
  | cons w ws ih =>
    obtain ⟨k, e⟩ := w
    have hk := h (k, e) List.mem_cons_self
    have ih' := ih fun w hw => h w (List.mem_cons_of_mem _ hw)
    cases wi <;> cases wv
    · exact ih'
    · exact ⟨hk _ rfl, ih'⟩
    · exact ⟨hk _ rfl, hk _ rfl, ih'⟩
    · exact ⟨hk _ rfl, hk _ rfl, hk _ rfl, ih'⟩

/-- Memory after the stores of one entry. -/
def putOne (wi wv : Bool) (k : ℕ) (e : Ent K) (m : TMem K) : TMem K := fun l =>
  if l.pos = k then sel wi wv e l (m l) else m l

theorem run_puts_cons (wi wv : Bool) (k : ℕ) (e : Ent K) (ws : List (ℕ × Ent K)) (m : TMem K) :
    run (puts wi wv ((k, e) :: ws)) m = run (puts wi wv ws) (putOne wi wv k e m) := by
  have key : ∀ m' : TMem K, m' = putOne wi wv k e m →
      run (puts wi wv ws) m' = run (puts wi wv ws) (putOne wi wv k e m) := fun m' h => by rw [h]
  cases wi <;> cases wv
  · refine key m (funext fun l => ?_)
    unfold putOne
    split
    · cases l <;> rfl
    · rfl
  · refine key _ (funext fun l => ?_)
    unfold putOne
    cases l with
    | row j => simp [sel, update, TLoc.pos]
    | col j => simp [sel, update, TLoc.pos]
    | val j =>
      by_cases h : j = k
      · subst h; simp [sel, update, TLoc.pos]; rfl
      · simp [sel, update, TLoc.pos, h]
  · refine key _ (funext fun l => ?_)
    unfold putOne
    cases l with
    | row j =>
      by_cases h : j = k
      · subst h; simp [sel, update, TLoc.pos]; rfl
      · simp [sel, update, TLoc.pos, h]
    | col j =>
      by_cases h : j = k
      · subst h; simp [sel, update, TLoc.pos]; rfl
      · simp [sel, update, TLoc.pos, h]
    | val j => simp [sel, update, TLoc.pos]
  · refine key _ (funext fun l => ?_)
    unfold putOne
    cases l with
    | row j =>
      by_cases h : j = k
      · subst h; simp [sel, update, TLoc.pos]; rfl
      · simp [sel, update, TLoc.pos, h]
    | col j =>
      by_cases h : j = k
      · subst h; simp [sel, update, TLoc.pos]; rfl
      · simp [sel, update, TLoc.pos, h]
    | val j =>
      by_cases h : j = k
      · subst h; simp [sel, update, TLoc.pos]; rfl
      · simp [sel, update, TLoc.pos, h]

theorem run_puts (wi wv : Bool) (ws : List (ℕ × Ent K)) (hnd : (ws.map Prod.fst).Nodup)
    (m : TMem K) :
    ∃ r : TMem K, run (puts wi wv ws) m = some r ∧
      (∀ w ∈ ws, ∀ l : TLoc, l.pos = w.1 → r l = sel wi wv w.2 l (m l)) ∧
      ∀ l : TLoc, (∀ w ∈ ws, l.pos ≠ w.1) → r l = m l := by
  induction ws generalizing m with
  | nil => exact ⟨m, rfl, by simp, fun _ _ => rfl⟩
  | cons w ws ih =>
    obtain ⟨k, e⟩ := w
    rw [List.map_cons, List.nodup_cons] at hnd
    obtain ⟨r, h1, h2, h3⟩ := ih hnd.2 (putOne wi wv k e m)
    refine ⟨r, by rw [run_puts_cons]; exact h1, ?_, fun l hl => ?_⟩
    · intro w hw l hlw
      rcases List.mem_cons.1 hw with rfl | hw
      · rw [h3 l fun w' hw' hp => hnd.1 (List.mem_map.2 ⟨w', hw', hp.symm.trans hlw⟩)]
        simp only [putOne]
        rw [if_pos hlw]
      · rw [h2 w hw l hlw]
        have : l.pos ≠ k := fun hk => hnd.1 (List.mem_map.2 ⟨w, hw, hlw.symm.trans hk⟩)
        simp only [putOne, if_neg this]
    · rw [h3 l fun w hw => hl w (List.mem_cons_of_mem _ hw)]
      simp only [putOne]
      rw [if_neg (hl (k, e) List.mem_cons_self)]

theorem posFrom_eq (k : ℕ) (l : List (Ent K)) :
    posFrom k l = l.mapIdx fun j e => (k + j, e) := by
  induction l generalizing k with
  | nil => rfl
  | cons e l ih =>
    rw [posFrom, ih, List.mapIdx_cons]
    congr 1
    congr 1
    funext j e
    rw [show k + 1 + j = k + (j + 1) by omega]

theorem mem_posFrom {k : ℕ} {l : List (Ent K)} {w : ℕ × Ent K} :
    w ∈ posFrom k l ↔ ∃ j, ∃ h : j < l.length, w = (k + j, l[j]) := by
  rw [posFrom_eq, List.mem_mapIdx]
  exact ⟨fun ⟨j, h, e⟩ => ⟨j, h, e.symm⟩, fun ⟨j, h, e⟩ => ⟨j, h, e.symm⟩⟩

theorem posFrom_append (k : ℕ) (a b : List (Ent K)) :
    posFrom k (a ++ b) = posFrom k a ++ posFrom (k + a.length) b := by
  induction a generalizing k with
  | nil => simp [posFrom]
  | cons e a ih =>
    rw [List.cons_append, posFrom, ih, posFrom, List.length_cons, List.cons_append,
      show k + 1 + a.length = k + (a.length + 1) by omega]

theorem posFrom_nodup (k : ℕ) (l : List (Ent K)) : ((posFrom k l).map Prod.fst).Nodup := by
  induction l generalizing k with
  | nil => simp [posFrom]
  | cons e l ih =>
    rw [posFrom, List.map_cons, List.nodup_cons]
    refine ⟨fun h => ?_, ih _⟩
    obtain ⟨w, hw, he⟩ := List.mem_map.1 h
    obtain ⟨j, _, rfl⟩ := mem_posFrom.1 hw
    simp only at he
    omega

/-- The arrays after `l` has been stored from position `k` on. -/
def mergeAt (wi wv : Bool) (m : TMem K) (k : ℕ) (l : List (Ent K)) : TMem K := fun x =>
  if h : k ≤ x.pos ∧ x.pos - k < l.length then sel wi wv (l[x.pos - k]'h.2) x (m x) else m x

theorem mergeAt_full (m : TMem K) (k : ℕ) (l : List (Ent K)) :
    mergeAt true true m k l = ofStore (writeAt (toStore m) k l) := by
  funext x
  unfold mergeAt
  cases x with
  | row j =>
    simp only [ofStore, writeAt, TLoc.pos, sel, if_true, toStore]
    split <;> rfl
  | col j =>
    simp only [ofStore, writeAt, TLoc.pos, sel, if_true, toStore]
    split <;> rfl
  | val j =>
    simp only [ofStore, writeAt, TLoc.pos, sel, if_true, toStore]
    split <;> rfl

/-- Index arrays and value array written one after the other. -/
theorem mergeAt_mergeAt (m : TMem K) (k : ℕ) (l : List (Ent K)) :
    mergeAt false true (mergeAt true false m k l) k l = mergeAt true true m k l := by
  funext x
  unfold mergeAt
  split
  · cases x <;> rfl
  · rfl

theorem mergeAt_append (wi wv : Bool) (m : TMem K) (k : ℕ) (a b : List (Ent K)) :
    mergeAt wi wv (mergeAt wi wv m k a) (k + a.length) b = mergeAt wi wv m k (a ++ b) := by
  funext x
  unfold mergeAt
  by_cases h1 : k + a.length ≤ x.pos ∧ x.pos - (k + a.length) < b.length
  · rw [dif_pos h1]
    have h2 : ¬ (k ≤ x.pos ∧ x.pos - k < a.length) := by omega
    have h3 : k ≤ x.pos ∧ x.pos - k < (a ++ b).length := by
      rw [List.length_append]; omega
    rw [dif_neg h2, dif_pos h3]
    congr 1
    rw [List.getElem_append_right (by omega)]
    congr 1
    omega
  · rw [dif_neg h1]
    by_cases h2 : k ≤ x.pos ∧ x.pos - k < a.length
    · have h3 : k ≤ x.pos ∧ x.pos - k < (a ++ b).length := by
        rw [List.length_append]; omega
      rw [dif_pos h2, dif_pos h3]
      congr 1
      rw [List.getElem_append_left (by omega)]
    · have h3 : ¬ (k ≤ x.pos ∧ x.pos - k < (a ++ b).length) := by
        rw [List.length_append]; omega
      rw [dif_neg h2, dif_neg h3]

/-- **Assembly loops.** When the iterations together store the entries of `l` at consecutive
positions, every schedule leaves the arrays with `l` stored from `k` on. -/
theorem forallR_puts {n : ℕ} {body : ℕ → Prog TLoc (TV K)} (wi wv : Bool) (m : TMem K)
    (ws : ℕ → List (ℕ × Ent K)) (k : ℕ) (l : List (Ent K))
    (hb : ∀ i, i < n → body i = puts wi wv (ws i))
    (hws : (List.range n).flatMap ws = posFrom k l) :
    forallR n body m = Out.one (mergeAt wi wv m k l) := by
  rw [forallR_congr hb]
  have hnd : ((List.range n).flatMap fun i => (ws i).map Prod.fst).Nodup := by
    have := posFrom_nodup k l
    rw [← hws, List.map_flatMap] at this
    exact this
  rw [List.nodup_flatMap] at hnd
  have hex : ∀ i, ∃ r : TMem K, i < n → run (puts wi wv (ws i)) m = some r ∧
      (∀ w ∈ ws i, ∀ l : TLoc, l.pos = w.1 → r l = sel wi wv w.2 l (m l)) ∧
      ∀ l : TLoc, (∀ w ∈ ws i, l.pos ≠ w.1) → r l = m l := by
    intro i
    by_cases hi : i < n
    · obtain ⟨r, h⟩ := run_puts wi wv (ws i) (hnd.1 i (List.mem_range.2 hi)) m
      exact ⟨r, fun _ => h⟩
    · exact ⟨m, fun h => absurd h hi⟩
  choose r hr using hex
  have hmem : ∀ w, (∃ i, i < n ∧ w ∈ ws i) ↔ w ∈ posFrom k l := by
    intro w
    rw [← hws, List.mem_flatMap]
    simp only [List.mem_range]
  refine forallR_race_free _ (fun i => {x | ∃ w ∈ ws i, x.pos = w.1}) (fun _ => ∅) r
    (fun i _ => puts_within _ _ _ _ fun w hw x hx => ⟨w, hw, hx⟩) ?_ (fun i hi => (hr i hi).1) ?_ ?_
  · rintro i j hi hj hij x ⟨w, hw, hx⟩
    refine ⟨?_, fun h => h⟩
    rintro ⟨w', hw', hx'⟩
    have hp : ∀ a b, a < b → a < n → b < n →
        List.Disjoint ((ws a).map Prod.fst) ((ws b).map Prod.fst) := by
      intro a b hab ha hb'
      have := hnd.2
      rw [List.pairwise_iff_getElem] at this
      have := this a b (by simpa using ha) (by simpa using hb') hab
      simpa [Function.onFun] using this
    rcases Nat.lt_or_ge i j with h | h
    · exact hp i j h hi hj (List.mem_map_of_mem hw) (by rw [← hx, hx']; exact List.mem_map_of_mem hw')
    · exact hp j i (by omega) hj hi (List.mem_map_of_mem hw')
        (by rw [← hx', hx]; exact List.mem_map_of_mem hw)
  · rintro i hi x ⟨w, hw, hx⟩
    rw [(hr i hi).2.1 w hw x hx]
    obtain ⟨j, hj, rfl⟩ := mem_posFrom.1 ((hmem w).1 ⟨i, hi, hw⟩)
    simp only at hx
    have hc : k ≤ x.pos ∧ x.pos - k < l.length := by omega
    unfold mergeAt
    rw [dif_pos hc]
    congr 2
    omega
  · intro x hx
    unfold mergeAt
    rw [dif_neg]
    rintro ⟨h1, h2⟩
    obtain ⟨i, hi, hw⟩ := (hmem (k + (x.pos - k), l[x.pos - k])).2 (mem_posFrom.2 ⟨_, h2, rfl⟩)
    exact hx i hi ⟨_, hw, by simp only; omega⟩

/-- Rows stored one behind the other. -/
theorem flatMap_posFrom (n k : ℕ) (f : ℕ → List (Ent K)) (s : ℕ → ℕ) (h0 : 0 < n → s 0 = k)
    (hs : ∀ i, i + 1 < n → s (i + 1) = s i + (f i).length) :
    ((List.range n).flatMap fun i => posFrom (s i) (f i)) = posFrom k ((List.range n).flatMap f) := by
  have key : ∀ n, (∀ i, i + 1 < n → s (i + 1) = s i + (f i).length) → (0 < n → s 0 = k) →
      ((List.range n).flatMap fun i => posFrom (s i) (f i))
        = posFrom k ((List.range n).flatMap f) ∧
      (∀ t, t + 1 = n → s t = k + ((List.range t).flatMap f).length) := by
    intro n
    induction n with
    | zero => intro _ _; exact ⟨by simp [posFrom], by simp⟩
    | succ n ih =>
      intro hs h0
      obtain ⟨a, b⟩ := ih (fun i hi => hs i (by omega)) fun h => h0 (by omega)
      have hsn : s n = k + ((List.range n).flatMap f).length := by
        cases n with
        | zero => simp [h0]
        | succ t =>
          rw [hs t (by omega), b t rfl, List.range_succ, List.flatMap_append, List.length_append]
          simp only [List.flatMap_cons, List.flatMap_nil, List.append_nil]
          omega
      refine ⟨?_, fun t ht => ?_⟩
      · rw [List.range_succ, List.flatMap_append, List.flatMap_append, a, posFrom_append]
        congr 1
        simp only [List.flatMap_cons, List.flatMap_nil, List.append_nil, hsn]
      · have : t = n := by omega
        subst this
        exact hsn
  exact (key n hs h0).1

theorem toStore_ofStore (st : Store K) : toStore (ofStore st) = st := rfl

theorem ofStore_toStore (m : TMem K) : ofStore (toStore m) = m := by
  funext x
  cases x <;> rfl

end

/-! ## Scans -/

theorem inclusiveScan_eq (n : ℕ) (f : ℕ → ℕ) (i : ℕ) (h : i ≤ n) :
    inclusiveScan 0 (n + 1) f i = ∑ j ∈ Finset.range (i + 1), f j := by
  unfold inclusiveScan
  rw [if_pos ⟨by omega, by omega⟩]
  simp

end Hiop.Raja
