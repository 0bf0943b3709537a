import Verif.PdSession.Model
import Verif.PriDec.AlgProps

/-!
# C89 — what a primal decomposition solver asks of the master problem, over every history of settings and runs

Specifications, in terms of the recorded calls only: `IsRound` (one outer iteration), `IsRounds` (several, each starting
from the point the one before returned), `lastSet` (the settings after a history: those set last).
-/

namespace Hiop.PdSession

open Hiop.Vec Hiop.PriDec

variable {σ : Type} {n nc : ℕ}

/-! ### Specification -/

/-- The calls of one outer iteration from the point `x`, ending in the point `y` with `status`: every recourse term once,
value and gradient, at the coupled part of `x`; the objective, except in the first iteration; the approximation with
the mean value and gradient at that point and a coefficient between `lo` and `hi`; and the solve from `x` with exactly
that approximation. -/
def IsRound (S : ℕ) (idx : Fin nc → Fin n) (lo hi : ℝ) (first : Bool) (x : RVec ℝ n) (calls : List (Ev n nc))
    (y : RVec ℝ n) (status : ℤ) : Prop :=
  ∃ (fs : ℕ → ℝ) (gs : ℕ → RVec ℝ nc) (c v : ℝ) (e : Rec ℝ n nc),
    calls = (List.range S).flatMap (fun i => [.rf i (fun j => x (idx j)) (fs i), .rg i (fun j => x (idx j)) (gs i)])
      ++ (if first then [] else [.obj v]) ++ [.give e, .solve true x (.live e) y status] ∧
    e.rval = (∑ i ∈ Finset.range S, fs i) / S ∧ (∀ j, e.rgrad j = (∑ i ∈ Finset.range S, gs i j) / S) ∧
    (∀ j, e.x0 j = x (idx j)) ∧ e.idx = idx ∧ (∀ j, e.rhess j = c) ∧ lo ≤ c ∧ c ≤ hi

/-- Several outer iterations (at least one): the number of iterations, the calls, the last status. -/
inductive IsRounds (S : ℕ) (idx : Fin nc → Fin n) (lo hi : ℝ) :
    Bool → RVec ℝ n → ℕ → List (Ev n nc) → RVec ℝ n → ℤ → Prop
  | one {first x calls y status} : IsRound S idx lo hi first x calls y status →
      IsRounds S idx lo hi first x 1 calls y status
  | cons {first x calls y st k rest z status} : IsRound S idx lo hi first x calls y st →
      IsRounds S idx lo hi false y k rest z status →
      IsRounds S idx lo hi first x (k + 1) (calls ++ rest) z status

/-- The value given by the last operation of the kind selected by `f`, `d` if there is none. -/
def lastOf {α : Type} (f : Op → Option α) (l : List Op) (d : α) : α := (l.reverse.findSome? f).getD d

/-- The settings after a history: each has the value that was given last to the setter of its name. -/
def lastSet (s : Sett) (l : List Op) : Sett where
  tol := lastOf (fun | .setTol v => some v | _ => none) l s.tol
  accpTol := lastOf (fun | .setAccpTol v => some v | _ => none) l s.accpTol
  accpCount := lastOf (fun | .setAccpCount v => some v | _ => none) l s.accpCount
  maxIter := lastOf (fun | .setMaxIter v => some v | _ => none) l s.maxIter
  alphaMin := lastOf (fun | .setAlphaMin v => some v | _ => none) l s.alphaMin
  alphaMax := lastOf (fun | .setAlphaMax v => some v | _ => none) l s.alphaMax
  alphaRatio := lastOf (fun | .setAlphaRatio v => some v | _ => none) l s.alphaRatio

/-! ### One run -/

theorem coup_eq (idx : Fin nc → Fin n) (h : nc < n ∨ nc = n ∧ ∀ j, (idx j).val = j.val) (x : RVec ℝ n) :
    coup idx x = fun j => x (idx j) := by
  funext j
  rcases h with h | ⟨h, hid⟩
  · simp [coup, h, gather]
  · have hj : j.val < n := h ▸ j.isLt
    have : idx j = ⟨j.val, hj⟩ := Fin.ext (hid j)
    rw [this]
    simp [coup, show ¬ nc < n by omega, hj]

theorem terms_spec (U : User σ n nc) (x0 : RVec ℝ nc) (w : World σ n nc) (S : ℕ) :
    ∃ (fs : ℕ → ℝ) (gs : ℕ → RVec ℝ nc),
      (terms U S x0 w).1.log = w.log ++ (List.range S).flatMap (fun i => [.rf i x0 (fs i), .rg i x0 (gs i)]) ∧
      (terms U S x0 w).2.1 = ∑ i ∈ Finset.range S, fs i ∧
      (∀ j, (terms U S x0 w).2.2 j = ∑ i ∈ Finset.range S, gs i j) ∧
      (terms U S x0 w).1.heap = w.heap ∧ (terms U S x0 w).1.next = w.next ∧ (terms U S x0 w).1.held = w.held := by
  induction S with
  | zero => exact ⟨fun _ => 0, fun _ => 0, by simp [terms]⟩
  | succ S ih =>
    obtain ⟨fs, gs, h1, h2, h3, h4, h5, h6⟩ := ih
    have hr : terms U (S + 1) x0 w = term U x0 (terms U S x0 w) S := by
      simp [terms, List.range_succ]
    set t := terms U S x0 w with ht
    refine ⟨fun i => if i = S then (U.rf t.1.u S x0).2 else fs i,
      fun i => if i = S then (U.rg (U.rf t.1.u S x0).1 S x0).2 else gs i, ?_, ?_, ?_, ?_, ?_, ?_⟩
    · rw [hr]
      simp only [term, h1, List.range_succ, List.flatMap_append, List.append_assoc]
      congr 2
      · apply List.flatMap_congr
        intro i hi
        have : i ≠ S := (List.mem_range.mp hi).ne
        simp [this]
      · simp
    · rw [hr, Finset.sum_range_succ]
      simp only [term, h2, if_true]
      congr 1
      exact Finset.sum_congr rfl fun i hi => by simp [(Finset.mem_range.mp hi).ne]
    · intro j
      rw [hr, Finset.sum_range_succ]
      simp only [term, axpy, h3, if_true, one_mul]
      congr 1
      exact Finset.sum_congr rfl fun i hi => by simp [(Finset.mem_range.mp hi).ne]
    · rw [hr]; exact h4
    · rw [hr]; exact h5
    · rw [hr]; exact h6

theorem scale_inv (v : RVec ℝ nc) (S : ℕ) (j : Fin nc) : scale v (1 / (S : ℝ)) j = v j / S := by
  unfold scale
  split
  · rename_i h
    have h0 : (S : ℝ) ≠ 0 := fun h0 => by rw [h0] at h; norm_num at h
    have : (S : ℝ) = 1 := by field_simp at h; linarith
    rw [this, div_one]
  · ring

/-- One outer iteration in terms of its calls. -/
theorem round_eq (U : User σ n nc) (S : ℕ) (idx : Fin nc → Fin n) (s : Sett) (a it : ℕ) (l : Loc σ n nc) :
    ∃ (e : Rec ℝ n nc) (h : HA nc), e.rval = (terms U S (coup idx l.x) l.w).2.1 / S ∧
      e.rgrad = scale (terms U S (coup idx l.x) l.w).2.2 (1 / S) ∧ e.x0 = coup idx l.x ∧ e.idx = idx ∧
      (∀ j, e.rhess j = (h.getAlphaF s.opts (scale (terms U S (coup idx l.x) l.w).2.2 (1 / S))).alpha) ∧
      ((round U S idx s a it l).w, (round U S idx s a it l).x, (round U S idx s a it l).status)
        = callSolve U true l.x (callGive U a e (if it = 0 then ((terms U S (coup idx l.x) l.w).1, (0 : ℝ))
            else callObj U (terms U S (coup idx l.x) l.w).1).1) :=
  ⟨_, _, rfl, rfl, rfl, rfl, fun _ => rfl, rfl⟩

theorem view_give (U : User σ n nc) (a : ℕ) (e : Rec ℝ n nc) (w : World σ n nc) :
    (callGive U a e w).view = .live e := by
  simp [callGive, World.view]

/-- One outer iteration. -/
theorem round_spec (U : User σ n nc) (S : ℕ) (idx : Fin nc → Fin n)
    (hc : nc < n ∨ nc = n ∧ ∀ j, (idx j).val = j.val) (s : Sett) (hab : s.alphaMin ≤ s.alphaMax) (a it : ℕ)
    (l : Loc σ n nc) :
    ∃ calls, (round U S idx s a it l).w.log = l.w.log ++ calls ∧
      IsRound S idx s.alphaMin s.alphaMax (it == 0) l.x calls (round U S idx s a it l).x
        (round U S idx s a it l).status ∧
      (∀ b, b ≠ a → (round U S idx s a it l).w.heap b = l.w.heap b) ∧
      (round U S idx s a it l).w.next = l.w.next ∧ (round U S idx s a it l).w.held = some a := by
  obtain ⟨fs, gs, h1, h2, h3, h4, h5, h6⟩ := terms_spec U (coup idx l.x) l.w S
  obtain ⟨e, h, e1, e2, e3, e4, e5, hq⟩ := round_eq U S idx s a it l
  have hx := coup_eq idx hc l.x
  generalize hw : (round U S idx s a it l).w = w' at hq ⊢
  generalize (round U S idx s a it l).x = y at hq ⊢
  generalize (round U S idx s a it l).status = st at hq ⊢
  set t := terms U S (coup idx l.x) l.w with ht
  have ha := alpha_bounds s.opts hab h (scale t.2.2 (1 / S))
  simp only [callSolve, view_give, Prod.mk.injEq] at hq
  obtain ⟨rfl, q2, q3⟩ := hq
  rw [← q2, ← q3]
  refine ⟨_, ?_, ⟨fs, gs, _, U.obj t.1.u, e, rfl, ?_, ?_, ?_, e4, e5, ha.1, ha.2⟩, ?_, ?_, ?_⟩
  · by_cases hit : it = 0 <;> simp [hit, callGive, callObj, h1, hx]
  · rw [e1, h2]
  · intro j; rw [e2, scale_inv, h3]
  · intro j; rw [e3, hx]
  · intro b hb
    by_cases hit : it = 0 <;> simp [hit, callGive, callObj, h4, hb]
  · by_cases hit : it = 0 <;> simp [hit, callGive, callObj, h5]
  · simp [callGive]

theorem rounds_spec (U : User σ n nc) (S : ℕ) (idx : Fin nc → Fin n)
    (hc : nc < n ∨ nc = n ∧ ∀ j, (idx j).val = j.val) (s : Sett) (hab : s.alphaMin ≤ s.alphaMax) (a : ℕ) :
    ∀ fuel it (l : Loc σ n nc), 1 ≤ fuel → 
    ∃ k calls, 1 ≤ k ∧ k ≤ fuel ∧ (rounds U S idx s a fuel it l).1.w.log = l.w.log ++ calls ∧
      IsRounds S idx s.alphaMin s.alphaMax (it == 0) l.x k calls (rounds U S idx s a fuel it l).1.x
        (rounds U S idx s a fuel it l).1.status ∧
      (rounds U S idx s a fuel it l).2 = (it : ℤ) + k - 1 ∧
      (∀ b, b ≠ a → (rounds U S idx s a fuel it l).1.w.heap b = l.w.heap b) ∧
      (rounds U S idx s a fuel it l).1.w.next = l.w.next ∧ (rounds U S idx s a fuel it l).1.w.held = some a := by
  intro fuel
  induction fuel with
  | zero => intro it l h; omega
  | succ fuel ih =>
    intro it l _
    obtain ⟨c, r1, r2, r3, r4, r5⟩ := round_spec U S idx hc s hab a it l
    by_cases hs : stops s it (round U S idx s a it l) = true
    · have hr : rounds U S idx s a (fuel + 1) it l = (round U S idx s a it l, (it : ℤ)) := by
        simp [rounds, hs]
      rw [hr]
      exact ⟨1, c, le_refl _, by omega, r1, .one r2, by simp, r3, r4, r5⟩
    · by_cases hf : fuel = 0
      · subst hf
        have hr : rounds U S idx s a 1 it l = (round U S idx s a it l, (it : ℤ)) := by
          simp [rounds]
        rw [hr]
        exact ⟨1, c, le_refl _, by omega, r1, .one r2, by simp, r3, r4, r5⟩
      · obtain ⟨k, d, g1, g2, g3, g4, g5, g6, g7, g8⟩ := ih (it + 1) (round U S idx s a it l) (by omega)
        have hr : rounds U S idx s a (fuel + 1) it l = rounds U S idx s a fuel (it + 1) (round U S idx s a it l) := by
          simp [rounds, hs]
        rw [hr]
        refine ⟨k + 1, c ++ d, by omega, by omega, by rw [g3, r1, List.append_assoc], .cons r2 ?_, ?_, ?_, ?_, g8⟩
        · simpa using g4
        · rw [g5]; push_cast; ring
        · intro b hb; rw [g6 b hb, r3 b hb]
        · rw [g7, r4]

/-- Nothing is left in memory; a user that was called holds a pointer to a released approximation. -/
structure Clean (w : World σ n nc) : Prop where
  heap : ∀ a, w.heap a = none
  held : ∀ a, w.held = some a → a < w.next
  log : w.log = [] ↔ w.held = none

theorem clean_init (u : σ) : Clean (World.init u : World σ n nc) :=
  ⟨fun _ => rfl, fun _ h => by simp [World.init] at h, by simp [World.init]⟩

theorem view_alloc (idx : Fin nc → Fin n) (w : World σ n nc) (h : Clean w) :
    (w.alloc idx).view = if w.log.isEmpty then .never else .released := by
  by_cases hl : w.log = []
  · have h1 := h.log.mp hl
    simp [World.view, World.alloc, hl, h1]
  · have h1 : w.held ≠ none := fun h' => hl (h.log.mpr h')
    obtain ⟨a, ha⟩ := Option.ne_none_iff_exists'.mp h1
    have h2 := h.held a ha
    simp [World.view, World.alloc, hl, ha, Function.update_of_ne h2.ne, h.heap]

theorem run_spec (U : User σ n nc) (S : ℕ) (idx : Fin nc → Fin n)
    (hc : nc < n ∨ nc = n ∧ ∀ j, (idx j).val = j.val) (p : Solver n) (w : World σ n nc) (hw : Clean w)
    (hab : p.sett.alphaMin ≤ p.sett.alphaMax) (hm : 1 ≤ p.sett.maxIter) :
    ∃ (y : RVec ℝ n) (st : ℤ) (b : ℝ) (k : ℕ) (calls : List (Ev n nc)) (status : ℤ),
      (run U S idx p w).2.1.log = w.log ++ ([.solve false 0 (if w.log.isEmpty then .never else .released) y st, .obj b]
        ++ calls) ∧
      IsRounds S idx p.sett.alphaMin p.sett.alphaMax true y k calls (run U S idx p w).1.x status ∧
      1 ≤ k ∧ (k : ℤ) ≤ p.sett.maxIter ∧ (run U S idx p w).1.status = some status ∧
      (run U S idx p w).1.it = (k : ℤ) - 1 := by
  obtain ⟨k, c, g1, g2, g3, g4, g5, g6, g7, g8⟩ := rounds_spec U S idx hc p.sett hab w.next p.sett.maxIter.toNat 0
    (basecase U p.sett (w.alloc idx)) (by omega)
  have hn : ¬ p.sett.maxIter ≤ 0 := by omega
  refine ⟨(basecase U p.sett (w.alloc idx)).x, (basecase U p.sett (w.alloc idx)).status,
    (basecase U p.sett (w.alloc idx)).base, k, c,
    (rounds U S idx p.sett w.next p.sett.maxIter.toNat 0 (basecase U p.sett (w.alloc idx))).1.status, ?_, ?_, g1,
    by omega, ?_, ?_⟩
  · simp only [run, if_neg hn, World.free, g3, ← view_alloc idx w hw]
    simp [basecase, callObj, callSolve, World.alloc]
  · simp only [run, if_neg hn]
    exact g4
  · simp only [run, if_neg hn]
  · simp only [run, if_neg hn]; rw [g5]; simp

/-- The memory and the pointer after a run, for any settings. -/
theorem round_mem (U : User σ n nc) (S : ℕ) (idx : Fin nc → Fin n) (s : Sett) (a it : ℕ) (l : Loc σ n nc) :
    (∀ b, b ≠ a → (round U S idx s a it l).w.heap b = l.w.heap b) ∧
      (round U S idx s a it l).w.next = l.w.next ∧ (round U S idx s a it l).w.held = some a ∧
      (round U S idx s a it l).w.log ≠ [] := by
  obtain ⟨fs, gs, h1, h2, h3, h4, h5, h6⟩ := terms_spec U (coup idx l.x) l.w S
  obtain ⟨e, h, e1, e2, e3, e4, e5, hq⟩ := round_eq U S idx s a it l
  simp only [callSolve, Prod.mk.injEq] at hq
  rw [hq.1]
  refine ⟨fun b hb => ?_, ?_, ?_, ?_⟩
  · by_cases hit : it = 0 <;> simp [hit, callGive, callObj, h4, hb]
  · by_cases hit : it = 0 <;> simp [hit, callGive, callObj, h5]
  · simp [callGive]
  · simp

theorem rounds_mem (U : User σ n nc) (S : ℕ) (idx : Fin nc → Fin n) (s : Sett) (a : ℕ) :
    ∀ fuel it (l : Loc σ n nc), 1 ≤ fuel →
      (∀ b, b ≠ a → (rounds U S idx s a fuel it l).1.w.heap b = l.w.heap b) ∧
      (rounds U S idx s a fuel it l).1.w.next = l.w.next ∧ (rounds U S idx s a fuel it l).1.w.held = some a ∧
      (rounds U S idx s a fuel it l).1.w.log ≠ [] := by
  intro fuel
  induction fuel with
  | zero => intro it l h; omega
  | succ fuel ih =>
    intro it l _
    have r := round_mem U S idx s a it l
    by_cases hs : stops s it (round U S idx s a it l) = true
    · have hr : rounds U S idx s a (fuel + 1) it l = (round U S idx s a it l, (it : ℤ)) := by
        simp [rounds, hs]
      rw [hr]; exact r
    · by_cases hf : fuel = 0
      · subst hf
        have hr : rounds U S idx s a 1 it l = (round U S idx s a it l, (it : ℤ)) := by
          simp [rounds]
        rw [hr]; exact r
      · obtain ⟨g1, g2, g3, g4⟩ := ih (it + 1) (round U S idx s a it l) (by omega)
        have hr : rounds U S idx s a (fuel + 1) it l = rounds U S idx s a fuel (it + 1) (round U S idx s a it l) := by
          simp [rounds, hs]
        rw [hr]
        exact ⟨fun b hb => by rw [g1 b hb, r.1 b hb], by rw [g2, r.2.1], g3, g4⟩

theorem clean_run (U : User σ n nc) (S : ℕ) (idx : Fin nc → Fin n) (p : Solver n) (w : World σ n nc) (h : Clean w) :
    Clean (run U S idx p w).2.1 := by
  by_cases hm : p.sett.maxIter ≤ 0
  · simp only [run, if_pos hm]
    refine ⟨fun a => ?_, fun a ha => ?_, ?_⟩
    · by_cases hb : a = w.next
      · simp [World.free, hb]
      · simp [World.free, World.alloc, hb, h.heap]
    · exact Nat.lt_succ_of_lt (h.held a ha)
    · exact h.log
  · obtain ⟨g1, g2, g3, g4⟩ := rounds_mem U S idx p.sett w.next p.sett.maxIter.toNat 0
      (basecase U p.sett (w.alloc idx)) (by omega)
    simp only [run, if_neg hm]
    refine ⟨fun a => ?_, fun a ha => ?_, ?_⟩
    · by_cases hb : a = w.next
      · simp [World.free, hb]
      · simp only [World.free, Function.update_of_ne hb]
        rw [g1 a hb]
        simp [basecase, callObj, callSolve, World.alloc, hb, h.heap]
    · have : a = w.next := by simpa [World.free, g3] using ha.symm
      rw [this]
      show w.next < (rounds U S idx p.sett w.next p.sett.maxIter.toNat 0 (basecase U p.sett (w.alloc idx))).1.w.next
      rw [g2]
      exact Nat.lt_succ_self _
    · simp [World.free, g3, g4]

theorem exec_clean (U : User σ n nc) (S : ℕ) (idx : Fin nc → Fin n) (l : List Op) (q : Solver n × World σ n nc)
    (h : Clean q.2) : Clean (exec U S idx q l).2 := by
  induction l generalizing q with
  | nil => exact h
  | cons o l ih =>
    refine ih _ ?_
    cases o <;> first | exact h | exact clean_run U S idx q.1 q.2 h

theorem run_sett (U : User σ n nc) (S : ℕ) (idx : Fin nc → Fin n) (p : Solver n) (w : World σ n nc) :
    (run U S idx p w).1.sett = p.sett := by
  unfold run
  simp only
  split <;> rfl

theorem lastOf_append {α : Type} (f : Op → Option α) (l : List Op) (o : Op) (d : α) :
    lastOf f (l ++ [o]) d = (f o).getD (lastOf f l d) := by
  cases h : f o <;> simp [lastOf, h]

theorem lastSet_append (s : Sett) (l : List Op) (o : Op) : lastSet s (l ++ [o]) = o.set (lastSet s l) := by
  cases o <;> simp [lastSet, lastOf_append, Op.set]

theorem exec_sett (U : User σ n nc) (S : ℕ) (idx : Fin nc → Fin n) (l : List Op) (q : Solver n × World σ n nc) :
    (exec U S idx q l).1.sett = lastSet q.1.sett l := by
  induction l using List.reverseRecOn with
  | nil => rfl
  | append_singleton l o ih =>
    have : exec U S idx q (l ++ [o]) = step U S idx (exec U S idx q l) o := by simp [exec]
    rw [this, lastSet_append, ← ih]
    cases o <;> first | rfl | exact run_sett U S idx _ _

/-! ### The property -/

/-- After every history of settings and runs, a run with the settings given last, if they allow an iteration and an
ordered interval for the coefficient: the basecase is solved first, from zero and without recourse; then come `k` outer
iterations as specified, at most the limit; the solver then reports the status of the last solve and `k - 1` as the number
of iterations. The pointer the user holds is valid in every solve with recourse (`IsRound`); in the basecase it is not: the
user has none, or that of a run before, which has been released. -/
theorem C89_every_run (U : User σ n nc) (S : ℕ) (_hS : 1 ≤ S) (idx : Fin nc → Fin n)
    (hc : nc < n ∨ nc = n ∧ ∀ j, (idx j).val = j.val) (s₀ : Sett) (u : σ) (l : List Op)
    (hab : (lastSet s₀ l).alphaMin ≤ (lastSet s₀ l).alphaMax) (hm : 1 ≤ (lastSet s₀ l).maxIter) :
    let q := exec U S idx (Solver.new n s₀, World.init u) l
    let q' := exec U S idx (Solver.new n s₀, World.init u) (l ++ [.run])
    ∃ (y : RVec ℝ n) (st : ℤ) (b : ℝ) (k : ℕ) (calls : List (Ev n nc)) (status : ℤ),
      q'.2.log = q.2.log ++ ([.solve false 0 (if q.2.log.isEmpty then .never else .released) y st, .obj b] ++ calls) ∧
      IsRounds S idx (lastSet s₀ l).alphaMin (lastSet s₀ l).alphaMax true y k calls q'.1.x status ∧
      1 ≤ k ∧ (k : ℤ) ≤ (lastSet s₀ l).maxIter ∧ q'.1.status = some status ∧ q'.1.it = (k : ℤ) - 1 := by
  intro q q'
  have h1 : q' = ((run U S idx q.1 q.2).1, (run U S idx q.1 q.2).2.1) := by
    simp [q', q, exec, step]
  have hs : q.1.sett = lastSet s₀ l := exec_sett U S idx l _
  rw [h1, ← hs]
  exact run_spec U S idx hc q.1 q.2 (exec_clean U S idx l _ (clean_init u)) (hs ▸ hab) (hs ▸ hm)

/-- A run does not depend on what the solver object did before: with the same settings, and the user as it is, a new
solver makes the same calls, gets the same answers and reports the same. -/
theorem C89_run_again (U : User σ n nc) (S : ℕ) (idx : Fin nc → Fin n) (s₀ : Sett) (u : σ) (l : List Op)
    (hm : 1 ≤ (lastSet s₀ l).maxIter) :
    let q := exec U S idx (Solver.new n s₀, World.init u) l
    exec U S idx (Solver.new n s₀, World.init u) (l ++ [.run])
      = step U S idx (Solver.new n (lastSet s₀ l), q.2) .run := by
  intro q
  have h1 : exec U S idx (Solver.new n s₀, World.init u) (l ++ [.run]) = step U S idx q .run := by
    simp [q, exec]
  have hs : q.1.sett = lastSet s₀ l := exec_sett U S idx l _
  have hn : ¬ (lastSet s₀ l).maxIter ≤ 0 := by omega
  rw [h1]
  simp [step, run, Solver.new, hs, hn]

/-- Every approximation is released in the run that made it. -/
theorem C89_released (U : User σ n nc) (S : ℕ) (idx : Fin nc → Fin n) (s₀ : Sett) (u : σ) (l : List Op) (a : ℕ) :
    (exec U S idx (Solver.new n s₀, World.init u) l).2.heap a = none :=
  (exec_clean U S idx l _ (clean_init u)).heap a

/-- `set_max_iteration` accepts numbers below one: the run then calls nobody and returns `Solve_Success`; iteration number
and status are those of the run before, or were never assigned. -/
theorem C89_no_iterations_refuted (U : User σ n nc) (S : ℕ) (idx : Fin nc → Fin n) (p : Solver n) (w : World σ n nc)
    (hm : p.sett.maxIter ≤ 0) :
    (run U S idx p w).2.2 = 0 ∧ (run U S idx p w).2.1.log = w.log ∧ (run U S idx p w).1.it = p.it ∧
      (run U S idx p w).1.status = p.status := by
  simp [run, hm, World.free, World.alloc]

/-- The setters do not compare: with `set_alpha_min(lo)` above `set_alpha_max(hi)`, which the constructor asserts not to
be, the coefficient of every approximation is `hi`, below the minimum that was set. -/
theorem C89_bounds_refuted (s : Sett) (h : s.alphaMax < s.alphaMin) (ha : HA nc) (g : RVec ℝ nc) :
    (ha.getAlphaF s.opts g).alpha = s.alphaMax ∧ (ha.getAlphaF s.opts g).alpha < s.alphaMin := by
  have : (ha.getAlphaF s.opts g).alpha = s.alphaMax := by
    simp only [HA.getAlphaF, Sett.opts]
    exact min_eq_left (h.le.trans (le_max_left _ _))
  exact ⟨this, this ▸ h⟩

/-! ### Runs of users without memory: the iteration of C45 -/

/-- A user whose recourse terms are functions and whose master solves are the calls number `m`, `m+1`, … of a problem
of C45; its state is the number of the next solve and the last objective. -/
def ofProb (E : Prob n nc) : User (ℕ × ℝ) n nc where
  solve u x inc v :=
    let r := E.solve u.1 x (if inc then (match v with | .live e => some e | _ => none) else none)
    ((u.1 + 1, r.2.1), r.1, r.2.2)
  rf u i x0 := (u, E.rf i x0)
  rg u i x0 := (u, E.rg i x0)
  obj u := u.2
  give u := u

/-- The settings as C45 has them. -/
def Sett.pd (s : Sett) : PDOpts :=
  { tol := s.tol, accpTol := s.accpTol, accpCount := s.accpCount.toNat, maxIter := s.maxIter.toNat,
    alphaMin := s.alphaMin, alphaMax := s.alphaMax, alphaRatio := s.alphaRatio }

/-- The problem seen by a run that starts with solve number `m`. -/
def later (E : Prob n nc) (m : ℕ) : Prob n nc := { E with solve := fun k => E.solve (m + k) }

theorem terms_ofProb (E : Prob n nc) (x0 : RVec ℝ nc) (w : World (ℕ × ℝ) n nc) (S : ℕ) :
    (terms (ofProb E) S x0 w).1.u = w.u ∧
      (terms (ofProb E) S x0 w).2.1 = (List.range S).foldl (fun a (i : ℕ) => a + E.rf i x0) 0 ∧
      (terms (ofProb E) S x0 w).2.2 = (List.range S).foldl (fun a (i : ℕ) => axpy a 1 (E.rg i x0)) 0 := by
  induction S with
  | zero => exact ⟨rfl, rfl, rfl⟩
  | succ S ih =>
    have hr : terms (ofProb E) (S + 1) x0 w = term (ofProb E) x0 (terms (ofProb E) S x0 w) S := by
      simp [terms, List.range_succ]
    obtain ⟨h1, h2, h3⟩ := ih
    rw [hr]
    simp only [List.range_succ, List.foldl_append, List.foldl_cons, List.foldl_nil, ← h2, ← h3]
    exact ⟨h1, rfl, rfl⟩

/-- The state of a run and that of C45. -/
structure Sim (m : ℕ) (l : Loc (ℕ × ℝ) n nc) (s : LS n nc) : Prop where
  x : l.x = s.x
  status : l.status = s.status
  ha : l.ha = s.ha
  base : l.base = s.base
  basem1 : l.basem1 = s.basem1
  convg : l.convg = s.convg
  accp : l.accp = s.accp
  u : l.w.u = (m + s.solves, s.obj)

theorem cast_count (P : Prop) [d : Decidable P] (k : ℕ) :
    (if P then (k : ℤ) + 1 else 0) = ((if P then k + 1 else 0 : ℕ) : ℤ) := by
  split <;> simp

theorem sim_round (E : Prob n nc) (m : ℕ) (s : Sett) (a it : ℕ) (l : Loc (ℕ × ℝ) n nc) (t : LS n nc) (h : Sim m l t) :
    Sim m (round (ofProb E) E.S E.idx s a it l) (body (later E m) s.pd it t) := by
  obtain ⟨h1, h2, h3⟩ := terms_ofProb E (coupled (later E m) t.x) l.w E.S
  have hv : ∀ e w, (callGive (ofProb E) a e w).view = .live e := fun e w => view_give _ a e w
  have hcp : coup E.idx t.x = coupled (later E m) t.x := rfl
  have e1 : (terms (ofProb E) E.S (coupled (later E m) t.x) l.w).2.1 / E.S = avgVal (later E m) (coupled (later E m) t.x) := by
    rw [h2]; rfl
  have e2 : scale (terms (ofProb E) E.S (coupled (later E m) t.x) l.w).2.2 (1 / E.S)
      = avgGrad (later E m) (coupled (later E m) t.x) := by
    rw [h3]; rfl
  have hu : ∀ e, (callGive (ofProb E) a e (terms (ofProb E) E.S (coupled (later E m) t.x) l.w).1).u = (m + t.solves, t.obj) := by
    intro e
    show (terms (ofProb E) E.S (coupled (later E m) t.x) l.w).1.u = _
    rw [h1, h.u]
  have hu' : ∀ e, (callGive (ofProb E) a e (callObj (ofProb E) (terms (ofProb E) E.S (coupled (later E m) t.x) l.w).1).1).u
      = (m + t.solves, t.obj) := hu
  have ho : (callObj (ofProb E) (terms (ofProb E) E.S (coupled (later E m) t.x) l.w).1).2 = t.obj := by
    show (terms (ofProb E) E.S (coupled (later E m) t.x) l.w).1.u.2 = _
    rw [h1, h.u]
  by_cases hit : it = 0
  · subst hit
    constructor <;>
    simp only [round, body, if_true, callSolve, hv, e1, e2, hu, h.ha, h.convg, h.base, h.basem1, h.x, h.accp, hcp]
    all_goals first | rfl | exact cast_count _ _
  · constructor <;>
    simp only [round, body, if_neg hit, callSolve, hv, e1, e2, hu', ho, h.ha, h.convg, h.base, h.basem1, h.x, h.accp, hcp]
    all_goals first | rfl | exact cast_count _ _

theorem sim_stops (m : ℕ) (s : Sett) (hc : 0 ≤ s.accpCount) (hm : 1 ≤ s.maxIter) (it : ℕ) (l : Loc (ℕ × ℝ) n nc)
    (t : LS n nc) (h : Sim m l t) : stops s it l = stopping s.pd it t := by
  have h1 : ((it : ℤ) = s.maxIter - 1) ↔ (it + 1 = s.maxIter.toNat) := by omega
  have h2 : (l.accp = s.accpCount) ↔ (t.accp = s.accpCount.toNat) := by rw [h.accp]; omega
  simp only [stops, stopping, h.convg, h1, h2]
  rfl

theorem sim_rounds (E : Prob n nc) (m : ℕ) (s : Sett) (hc : 0 ≤ s.accpCount) (hm : 1 ≤ s.maxIter) (a : ℕ) :
    ∀ fuel it (l : Loc (ℕ × ℝ) n nc) (t : LS n nc), 1 ≤ fuel → Sim m l t →
      Sim m (rounds (ofProb E) E.S E.idx s a fuel it l).1 (loop (later E m) s.pd fuel it t).1 ∧
        (rounds (ofProb E) E.S E.idx s a fuel it l).2 = ((loop (later E m) s.pd fuel it t).2 : ℤ) := by
  intro fuel
  induction fuel with
  | zero => intro it l t h; omega
  | succ fuel ih =>
    intro it l t _ h
    have hr := sim_round E m s a it l t h
    have hs := sim_stops m s hc hm it _ _ hr
    by_cases hst : stopping s.pd it (body (later E m) s.pd it t) = true
    · simp only [rounds, loop, hs, hst, if_true]
      exact ⟨hr, trivial⟩
    · by_cases hf : fuel = 0
      · subst hf
        simp only [rounds, loop, hs, hst]
        exact ⟨hr, by simp⟩
      · simp only [rounds, loop, hs, hst]
        exact ih (it + 1) _ _ (by omega) hr

/-- For such users every run, after any history, is the run of C45 from the solve it starts with: same final point,
status and number of iterations. So the stopping rule, the bounds of the coefficients and the other statements of C45 hold
for every run. -/
theorem C89_is_C45 (E : Prob n nc) (s₀ : Sett) (l : List Op) (hc : 0 ≤ (lastSet s₀ l).accpCount)
    (hm : 1 ≤ (lastSet s₀ l).maxIter) :
    let q := exec (ofProb E) E.S E.idx (Solver.new n s₀, World.init (0, 0)) l
    let q' := exec (ofProb E) E.S E.idx (Solver.new n s₀, World.init (0, 0)) (l ++ [.run])
    let r := runSingle (later E q.2.u.1) (lastSet s₀ l).pd
    q'.1.x = r.1.x ∧ q'.1.status = some r.1.status ∧ q'.1.it = r.2.1 := by
  intro q q' r
  have h1 : q' = ((run (ofProb E) E.S E.idx q.1 q.2).1, (run (ofProb E) E.S E.idx q.1 q.2).2.1) := by
    simp [q', q, exec, step]
  have hs : q.1.sett = lastSet s₀ l := exec_sett (ofProb E) E.S E.idx l _
  have hn : ¬ q.1.sett.maxIter ≤ 0 := by rw [hs]; omega
  have hb : Sim q.2.u.1 (basecase (ofProb E) q.1.sett (q.2.alloc E.idx)) (start (later E q.2.u.1) q.1.sett.pd) := by
    constructor <;> rfl
  obtain ⟨g1, g2⟩ := sim_rounds E q.2.u.1 q.1.sett (hs ▸ hc) (hs ▸ hm) q.2.next q.1.sett.maxIter.toNat 0 _ _
    (by rw [hs]; omega) hb
  have hr : r = runSingle (later E q.2.u.1) q.1.sett.pd := by rw [hs]
  rw [h1, hr]
  simp only [run, if_neg hn, runSingle]
  exact ⟨g1.x, congrArg some g1.status, g2⟩

/-! ### The hypotheses are met -/

/-- The settings of a new solver with default options (hiopOptions.cpp:1607-1725). -/
noncomputable def exSett : Sett :=
  { tol := 1e-5, accpTol := 1e-3, accpCount := 25, maxIter := 30000, alphaMin := 1e-5, alphaMax := 1e6, alphaRatio := 1 }

/-- A solver that is run, limited to one iteration and run again. -/
noncomputable def exOps : List Op := [.run, .setMaxIter 1, .setTol 1e-8]

example : (lastSet exSett exOps).maxIter = 1 ∧ (lastSet exSett exOps).tol = 1e-8 ∧
    (lastSet exSett exOps).alphaMin ≤ (lastSet exSett exOps).alphaMax ∧ 0 ≤ (lastSet exSett exOps).accpCount := by
  norm_num [lastSet, lastOf, exOps, exSett]

/-- A concrete history: two variables, one coupled, one recourse term; after a run, the limit is set to one iteration: the
second run makes exactly one iteration, and in its basecase the user's pointer is to a released approximation. -/
theorem C89_basecase_pointer_refuted :
    let q' := exec (ofProb exProb) 1 exProb.idx (Solver.new 2 exSett, World.init (0, 0)) (exOps ++ [.run])
    q'.1.it = 0 ∧ ∃ pre y st b calls, pre ≠ [] ∧
      q'.2.log = pre ++ ([.solve false 0 .released y st, .obj b] ++ calls) := by
  intro q'
  have hl : (lastSet exSett exOps).maxIter = 1 := by simp [lastSet, lastOf, exOps]
  have hb : (lastSet exSett exOps).alphaMin ≤ (lastSet exSett exOps).alphaMax := by
    norm_num [lastSet, lastOf, exOps, exSett]
  obtain ⟨y, st, b, k, calls, status, h1, -, h3, h4, -, h6⟩ := C89_every_run (ofProb exProb) 1 (le_refl _) exProb.idx
    (Or.inl (by norm_num)) exSett (0, 0) exOps hb (by omega)
  obtain ⟨y0, st0, b0, k0, calls0, status0, g1, -⟩ := C89_every_run (ofProb exProb) 1 (le_refl _) exProb.idx
    (Or.inl (by norm_num)) exSett (0, 0) [] (by norm_num [lastSet, lastOf, exSett]) (by norm_num [lastSet, lastOf, exSett])
  have hk : k = 1 := by omega
  have hlog : (exec (ofProb exProb) 1 exProb.idx (Solver.new 2 exSett, World.init (0, 0)) exOps).2.log ≠ [] := by
    have : (exec (ofProb exProb) 1 exProb.idx (Solver.new 2 exSett, World.init (0, 0)) exOps).2.log
        = (exec (ofProb exProb) 1 exProb.idx (Solver.new 2 exSett, World.init (0, 0)) ([] ++ [.run])).2.log := rfl
    rw [this, g1]
    simp
  refine ⟨by rw [h6, hk]; norm_num, _, y, st, b, calls, hlog, ?_⟩
  rw [h1, if_neg (by simpa using hlog)]

end Hiop.PdSession
