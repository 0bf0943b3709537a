import Verif.Krylov.Model
import Mathlib.Tactic.Ring
import Mathlib.Tactic.Linarith

/-!
# C42: success of a Krylov solve means a small true residual
-/

set_option linter.unusedSectionVars false
set_option linter.unusedSimpArgs false

namespace Hiop.Krylov

open Hiop.Vec

variable {K : Type*} [Field K] [LinearOrder K] [IsStrictOrderedRing K] {n : ℕ}

/-! ## Specification -/

/-- The defect `b - A x`. -/
def defect (A : RVec K n → RVec K n) (b x : RVec K n) : RVec K n := fun i => b i - A x i

/-- `A` is linear (it respects `x + a*y`). -/
def LinOp (A : RVec K n → RVec K n) : Prop :=
  ∀ (x y : RVec K n) (a : K), A (fun i => x i + a * y i) = fun i => A x i + a * A y i

/-! ## Lemmas -/

theorem residual_eq (p : Par K n) (b x : RVec K n) : residual p b x = defect p.A b x := by
  funext i
  have h : (1 : K) ≠ -1 := by
    intro h
    have h1 : (0 : K) < 1 := zero_lt_one
    rw [h] at h1
    exact absurd h1 (by simp)
  simp only [residual, scale, axpy, defect, if_neg h]
  ring

theorem defect_step {A : RVec K n → RVec K n} (hA : LinOp A) (b x d : RVec K n) (a : K) :
    defect A b (axpy x a d) = axpy (defect A b x) (-a) (A d) := by
  funext i
  have := congrFun (hA x d a) i
  simp only [defect, axpy] at *
  rw [show axpy x a d = fun i => x i + a * d i from rfl, this]; ring

/-- What a convergence check guarantees. -/
theorem check_spec (pcg : Bool) (p : Par K n) (tolb it : K) (s s' : St K n) (r r' : RVec K n)
    (out : Bool) (h : check pcg p tolb it s r = (s', r', out)) :
    s'.xk = s.xk ∧ s'.xmin = s.xmin ∧ s'.normrmin = s.normrmin ∧ s'.absr = p.nrm r' ∧
    (r' = r ∨ r' = defect p.A s.b s.xk) ∧ s'.more ≤ s.more + 1 ∧
    (out = false → s'.b = s.b ∧ s'.flag = s.flag) ∧
    (out = true → (s'.flag = 0 ∧ r' = defect p.A s.b s.xk ∧ s'.absr ≤ tolb ∧ s'.iter = it) ∨
      (s'.flag = 3 ∧ 100 ≤ s'.more ∧ s'.b = if pcg then s.b else s.xk)) := by
  unfold check at h
  simp only [residual_eq] at h
  by_cases h1 : p.nrm r ≤ tolb ∨ 3 ≤ s.stag ∨ s.more ≠ 0
  · rw [if_pos h1] at h
    by_cases h2 : p.nrm (defect p.A s.b s.xk) ≤ tolb
    · rw [if_pos h2] at h
      simp only [Prod.mk.injEq] at h
      obtain ⟨h3, h4, h5⟩ := h
      subst h3 h4 h5
      simp [h2]
    · rw [if_neg h2] at h
      by_cases h6 : 100 ≤ s.more + 1
      · rw [if_pos h6] at h
        simp only [Prod.mk.injEq] at h
        obtain ⟨h3, h4, h5⟩ := h
        subst h3 h4 h5
        simp [h6]
      · rw [if_neg h6] at h
        simp only [Prod.mk.injEq] at h
        obtain ⟨h3, h4, h5⟩ := h
        subst h3 h4 h5
        simp
  · rw [if_neg h1] at h
    simp only [Prod.mk.injEq] at h
    obtain ⟨h3, h4, h5⟩ := h
    subst h3 h4 h5
    simp

/-- Bookkeeping of residual norms against the original right-hand side. -/
structure Cons (p : Par K n) (b0 : RVec K n) (c : K) (s : St K n) : Prop where
  absr : s.absr = p.nrm (defect p.A b0 s.xk)
  min : s.normrmin = p.nrm (defect p.A b0 s.xmin)
  le : s.normrmin ≤ c

/-- State in which the loop continues after `ii` passes. -/
structure Inv (p : Par K n) (b0 : RVec K n) (c : K) (ii : ℕ) (s : St K n) : Prop where
  b : s.b = b0
  flag : s.flag = 1
  more : s.more ≤ 2 * ii
  lin : LinOp p.A → s.res = defect p.A b0 s.xk ∧ Cons p b0 c s

/-- State in which the loop is left during pass `ii`. -/
structure Exit (pcg : Bool) (p : Par K n) (b0 : RVec K n) (c tolb : K) (ii : ℕ) (s : St K n) :
    Prop where
  conv : s.flag = 0 → s.absr = p.nrm (defect p.A b0 s.xk) ∧ s.absr ≤ tolb ∧ 0 < s.iter ∧
    s.iter ≤ ii + 1
  b : s.flag = 0 ∨ s.b = b0 ∨ (pcg = false ∧ 100 ≤ s.more)
  more : s.more ≤ 2 * (ii + 1)
  lin : LinOp p.A → Cons p b0 c s

theorem minUpd_spec (p : Par K n) (b0 : RVec K n) (c : K) (s : St K n) (it : K) :
    (minUpd s it).b = s.b ∧ (minUpd s it).flag = s.flag ∧ (minUpd s it).more = s.more ∧
    (minUpd s it).xk = s.xk ∧ (minUpd s it).res = s.res ∧ (minUpd s it).absr = s.absr ∧
    (minUpd s it).stag = s.stag ∧
    (Cons p b0 c s → Cons p b0 c (minUpd s it)) := by
  unfold minUpd
  split
  · next h =>
    refine ⟨rfl, rfl, rfl, rfl, rfl, rfl, rfl, fun k => ⟨k.absr, k.absr, ?_⟩⟩
    exact le_trans h.le k.le
  · exact ⟨rfl, rfl, rfl, rfl, rfl, rfl, rfl, id⟩

theorem half_pos (ii : ℕ) : (0 : K) < ii + 1 - 1 / 2 ∧ (ii : K) + 1 - 1 / 2 ≤ ii + 1 := by
  have : (0 : K) ≤ ii := Nat.cast_nonneg ii
  constructor
  · have : (1 : K) / 2 < 1 := by norm_num
    linarith
  · have : (0 : K) < 1 / 2 := by norm_num
    linarith

/-- The fields the bookkeeping looks at. -/
def core (s : St K n) : RVec K n × RVec K n × RVec K n × K × K × ℕ :=
  (s.b, s.xk, s.xmin, s.normrmin, s.absr, s.more)

theorem Cons.of_core {p : Par K n} {b0 : RVec K n} {c : K} {s s' : St K n} (h : core s' = core s)
    (k : Cons p b0 c s) : Cons p b0 c s' := by
  simp only [core, Prod.mk.injEq] at h
  obtain ⟨_, h2, h3, h4, h5, _⟩ := h
  exact ⟨by rw [h5, h2]; exact k.absr, by rw [h4, h3]; exact k.min, by rw [h4]; exact k.le⟩

/-- Half-step invariant: like `Inv`, with the residual vector `r` kept separately. -/
structure Mid (p : Par K n) (b0 : RVec K n) (c : K) (k : ℕ) (s : St K n) (r : RVec K n) : Prop where
  b : s.b = b0
  flag : s.flag = 1
  more : s.more ≤ k
  lin : LinOp p.A → r = defect p.A b0 s.xk ∧ Cons p b0 c s

/-- Leaving the loop without convergence from a state satisfying the invariant. -/
theorem Mid.breakdown {p : Par K n} {b0 : RVec K n} {c : K} {k : ℕ} {s : St K n} {r : RVec K n}
    (h : Mid p b0 c k s r) (pcg : Bool) (tolb : K) (ii : ℕ) (hk : k ≤ 2 * (ii + 1)) (s' : St K n)
    (hc : core s' = core s) (hf : s'.flag ≠ 0) : Exit pcg p b0 c tolb ii s' := by
  have h0 := hc
  simp only [core, Prod.mk.injEq] at h0
  refine ⟨fun e => absurd e hf, Or.inr (Or.inl (by rw [h0.1]; exact h.b)), ?_,
    fun hl => (h.lin hl).2.of_core hc⟩
  rw [h0.2.2.2.2.2]; exact le_trans h.more hk

/-- A step along `d` followed by the check. -/
theorem check_mid (pcg : Bool) (p : Par K n) (b0 : RVec K n) (c tolb it a : K) (k ii : ℕ)
    (s s0 : St K n) (r d q : RVec K n) (h : Mid p b0 c k s r) (hq : q = p.A d)
    (hs0 : s0 = { s with stag := stagUpd p s d a, xk := axpy s.xk a d })
    (hit : 0 < it ∧ it ≤ ii + 1) (hk : k + 1 ≤ 2 * (ii + 1)) :
    let e := check pcg p tolb it s0 (axpy r (-a) q)
    (e.2.2 = true → Exit pcg p b0 c tolb ii e.1) ∧
    (e.2.2 = false → Mid p b0 c (k + 1) e.1 e.2.1) := by
  intro e
  obtain ⟨k1, k2, k3, k4, k5, k6, k7, k8⟩ :=
    check_spec pcg p tolb it s0 e.1 (axpy r (-a) q) e.2.1 e.2.2 rfl
  have xk0 : s0.xk = axpy s.xk a d := by rw [hs0]
  have b00 : s0.b = b0 := by rw [hs0]; exact h.b
  have m0 : s0.more = s.more := by rw [hs0]
  have f0 : s0.flag = s.flag := by rw [hs0]
  have n0 : s0.normrmin = s.normrmin := by rw [hs0]
  have x0 : s0.xmin = s.xmin := by rw [hs0]
  have hm := h.more
  have hlin : LinOp p.A → e.2.1 = defect p.A b0 e.1.xk := by
    intro hl
    rcases k5 with k5 | k5
    · rw [k5, k1, xk0, defect_step hl, ← (h.lin hl).1, hq]
    · rw [k5, k1, b00]
  have hcons : LinOp p.A → Cons p b0 c e.1 := fun hl =>
    ⟨by rw [k4, hlin hl], by rw [k3, k2, n0, x0]; exact (h.lin hl).2.min,
      by rw [k3, n0]; exact (h.lin hl).2.le⟩
  refine ⟨fun ho => ⟨?_, ?_, by omega, hcons⟩, fun ho => ⟨?_, ?_, by omega, fun hl => ⟨hlin hl, hcons hl⟩⟩⟩
  · intro hf
    rcases k8 ho with ⟨_, a2, a3, a4⟩ | ⟨a1, _⟩
    · refine ⟨by rw [k4, a2, k1, b00], a3, by rw [a4]; exact hit.1, by rw [a4]; exact hit.2⟩
    · rw [hf] at a1; cases a1
  · rcases k8 ho with ⟨a1, _⟩ | ⟨a1, a2, a3⟩
    · exact Or.inl a1
    · cases pcg
      · exact Or.inr (Or.inr ⟨rfl, a2⟩)
      · exact Or.inr (Or.inl (by rw [a3, if_pos rfl]; exact b00))
  · rw [(k7 ho).1]; exact b00
  · rw [(k7 ho).2, f0]; exact h.flag

theorem Mid.minUpd {p : Par K n} {b0 : RVec K n} {c : K} {k : ℕ} {s : St K n} {r : RVec K n}
    (h : Mid p b0 c k s r) (it : K) : Mid p b0 c k (minUpd s it) r := by
  obtain ⟨m1, m2, m3, m4, m5, m6, m7, m8⟩ := minUpd_spec p b0 c s it
  exact ⟨by rw [m1]; exact h.b, by rw [m2]; exact h.flag, by rw [m3]; exact h.more,
    fun hl => ⟨by rw [m4]; exact (h.lin hl).1, m8 (h.lin hl).2⟩⟩

theorem Mid.upd {p : Par K n} {b0 : RVec K n} {c : K} {k : ℕ} {s s' : St K n} {r : RVec K n}
    (h : Mid p b0 c k s r) (hc : core s' = core s) (hf : s'.flag = s.flag) :
    Mid p b0 c k s' r := by
  have h0 := hc
  simp only [core, Prod.mk.injEq] at h0
  exact ⟨by rw [h0.1]; exact h.b, by rw [hf]; exact h.flag, by rw [h0.2.2.2.2.2]; exact h.more,
    fun hl => ⟨by rw [h0.2.1]; exact (h.lin hl).1, (h.lin hl).2.of_core hc⟩⟩

/-- What a pass of a loop guarantees. -/
def StepOk (pcg : Bool) (p : Par K n) (b0 : RVec K n) (c tolb : K) (ii : ℕ) (e : St K n × Bool) :
    Prop :=
  (e.2 = false → Mid p b0 c (2 * (ii + 1)) e.1 e.1.res) ∧
  (e.2 = true → Exit pcg p b0 c tolb ii e.1)

theorem stepOk_breakdown {p : Par K n} {b0 : RVec K n} {c : K} {k : ℕ} {s : St K n} {r : RVec K n}
    (h : Mid p b0 c k s r) (pcg : Bool) (tolb : K) (ii : ℕ) (hk : k ≤ 2 * (ii + 1)) (s' : St K n)
    (it : K) (hc : core s' = core s) : StepOk pcg p b0 c tolb ii (breakdown s' it) := by
  refine ⟨fun e => ?_, fun _ => h.breakdown pcg tolb ii hk _ hc ?_⟩
  · simp [Krylov.breakdown] at e
  · simp [Krylov.breakdown]

theorem pcgTail_ok (p : Par K n) (b0 : RVec K n) (c tolb alpha : K) (ii : ℕ) (s : St K n)
    (pk qk : RVec K n) (h : Mid p b0 c (2 * ii) s s.res) (hq : qk = p.A pk) :
    StepOk true p b0 c tolb ii (pcgTail p tolb ii s alpha pk qk) := by
  have h0 : (0 : K) ≤ ii := Nat.cast_nonneg ii
  obtain ⟨e1, e2⟩ := check_mid true p b0 c tolb (ii + 1) alpha (2 * ii) ii s _ s.res pk qk h hq rfl
    ⟨by linarith, le_rfl⟩ (by omega)
  unfold pcgTail
  simp only
  generalize check true p tolb _ _ _ = e at *
  split
  · next ho =>
    refine ⟨by simp, fun _ => ?_⟩
    have := e1 ho
    exact ⟨this.conv, this.b, this.more, fun hl => Cons.of_core (s := e.1) rfl (this.lin hl)⟩
  · next ho =>
    have m : Mid p b0 c (2 * ii + 1) { e.1 with res := e.2.1 } e.2.1 :=
      (e2 (by simpa using ho)).upd rfl rfl
    have m2 := m.minUpd (ii : K)
    split
    · exact ⟨by simp, fun _ => m2.breakdown true tolb ii (by omega) _ rfl (by simp)⟩
    · refine ⟨fun _ => ⟨m2.b, m2.flag, le_trans m2.more (by omega), ?_⟩, by simp⟩
      rw [(minUpd_spec p b0 c { e.1 with res := e.2.1 } (ii : K)).2.2.2.2.1]
      exact m2.lin

theorem pcgStep_ok (p : Par K n) (b0 : RVec K n) (c tolb : K) (ii : ℕ) (s : St K n)
    (h : Mid p b0 c (2 * ii) s s.res) : StepOk true p b0 c tolb ii (pcgStep p tolb ii s) := by
  unfold pcgStep
  simp only
  split
  · exact stepOk_breakdown h true tolb ii (by omega) _ _ rfl
  unfold pcgDirection
  simp only
  split
  · exact stepOk_breakdown h true tolb ii (by omega) _ _ rfl
  generalize (if ii = 0 then precond p s.res else _ : RVec K n) = pk
  split
  · exact stepOk_breakdown h true tolb ii (by omega) _ _ rfl
  split
  · exact stepOk_breakdown h true tolb ii (by omega) _ _ rfl
  exact pcgTail_ok p b0 c tolb _ ii _ pk _ (h.upd rfl rfl) rfl

theorem bicgTail_ok (p : Par K n) (b0 : RVec K n) (c tolb omega : K) (ii : ℕ) (s : St K n)
    (ph sk t : RVec K n) (h : Mid p b0 c (2 * ii + 1) s sk) (hq : t = p.A ph) :
    StepOk false p b0 c tolb ii (bicgTail p tolb ii s omega ph sk t) := by
  have h0 : (0 : K) ≤ ii := Nat.cast_nonneg ii
  obtain ⟨e1, e2⟩ := check_mid false p b0 c tolb (ii + 1) omega (2 * ii + 1) ii s _ sk ph t h hq rfl
    ⟨by linarith, le_rfl⟩ (by omega)
  unfold bicgTail
  simp only
  generalize check false p tolb _ _ _ = e at *
  split
  · next ho =>
    refine ⟨by simp, fun _ => ?_⟩
    have := e1 ho
    exact ⟨this.conv, this.b, this.more, fun hl => Cons.of_core (s := e.1) rfl (this.lin hl)⟩
  · next ho =>
    have m : Mid p b0 c (2 * ii + 1 + 1) { e.1 with res := e.2.1 } e.2.1 :=
      (e2 (by simpa using ho)).upd rfl rfl
    have m2 := m.minUpd ((ii : K) + 1)
    split
    · exact ⟨by simp, fun _ => m2.breakdown false tolb ii (by omega) _ rfl (by simp)⟩
    · refine ⟨fun _ => ⟨m2.b, m2.flag, le_trans m2.more (by omega), ?_⟩, by simp⟩
      rw [(minUpd_spec p b0 c { e.1 with res := e.2.1 } ((ii : K) + 1)).2.2.2.2.1]
      exact m2.lin

theorem bicgFirst_ok (p : Par K n) (b0 : RVec K n) (c tolb alpha : K) (ii : ℕ) (s : St K n)
    (ph v : RVec K n) (h : Mid p b0 c (2 * ii) s s.res) (hq : v = p.A ph) :
    StepOk false p b0 c tolb ii (bicgFirst p tolb ii s alpha ph v) := by
  obtain ⟨e1, e2⟩ := check_mid false p b0 c tolb (ii + 1 - 1 / 2) alpha (2 * ii) ii s _ s.res ph v h
    hq rfl (half_pos ii) (by omega)
  unfold bicgFirst
  simp only
  generalize check false p tolb _ _ _ = e at *
  split
  · next ho => exact ⟨by simp, fun _ => e1 ho⟩
  · next ho =>
    have m := e2 (by simpa using ho)
    split
    · exact ⟨by simp, fun _ => m.breakdown false tolb ii (by omega) _ rfl (by simp)⟩
    · have m2 := m.minUpd ((ii : K) + 1 - 1 / 2)
      unfold bicgSecond
      simp only
      split
      · exact stepOk_breakdown m2 false tolb ii (by omega) _ _ rfl
      split
      · exact stepOk_breakdown m2 false tolb ii (by omega) _ _ rfl
      exact bicgTail_ok p b0 c tolb _ ii _ _ _ _ (m2.upd rfl rfl) rfl

theorem bicgStep_ok (p : Par K n) (rt b0 : RVec K n) (c tolb : K) (ii : ℕ) (s : St K n)
    (h : Mid p b0 c (2 * ii) s s.res) : StepOk false p b0 c tolb ii (bicgStep p rt tolb ii s) := by
  unfold bicgStep
  simp only
  split
  · exact stepOk_breakdown h false tolb ii (by omega) _ _ rfl
  unfold bicgDirection
  simp only
  split
  · exact stepOk_breakdown h false tolb ii (by omega) _ _ rfl
  generalize (if ii = 0 then s.res else _ : RVec K n) = pk
  split
  · exact stepOk_breakdown h false tolb ii (by omega) _ _ rfl
  split
  · exact stepOk_breakdown h false tolb ii (by omega) _ _ rfl
  exact bicgFirst_ok p b0 c tolb _ ii _ _ _ (h.upd rfl rfl) rfl

theorem loop_ok (pcg : Bool) (p : Par K n) (b0 : RVec K n) (c tolb : K)
    (step : ℕ → St K n → St K n × Bool)
    (hstep : ∀ ii s, Mid p b0 c (2 * ii) s s.res → StepOk pcg p b0 c tolb ii (step ii s))
    (fuel ii : ℕ) (s : St K n) (h : Mid p b0 c (2 * ii) s s.res) :
    let e := loop step fuel ii s
    (e.2 = ii + fuel ∧ Mid p b0 c (2 * e.2) e.1 e.1.res) ∨
      (e.2 < ii + fuel ∧ Exit pcg p b0 c tolb e.2 e.1) := by
  induction fuel generalizing ii s with
  | zero => exact Or.inl ⟨rfl, h⟩
  | succ k ih =>
    have hs := hstep ii s h
    simp only [loop]
    by_cases ho : (step ii s).2 = true
    · rw [if_pos ho]
      exact Or.inr ⟨by simp only; omega, hs.2 ho⟩
    · rw [if_neg ho]
      rcases ih (ii + 1) _ (hs.1 (by simpa using ho)) with ⟨a, b⟩ | ⟨a, b⟩
      · exact Or.inl ⟨by omega, b⟩
      · exact Or.inr ⟨by omega, b⟩

theorem start_mid (p : Par K n) (junk : St K n) (b x0 : RVec K n) :
    Mid p b (p.nrm (defect p.A b x0)) (2 * 0) (start p junk b x0) (start p junk b x0).res := by
  refine ⟨rfl, rfl, le_rfl, fun _ => ⟨?_, ?_, ?_, ?_⟩⟩ <;>
    simp only [start, residual_eq] <;> exact le_rfl

/-! ## The property -/

/-- What a caller may rely on: with success the returned vector has a small true residual against the
original right-hand side, and the number of iterations is within the limit. -/
def Sound (p : Par K n) (b : RVec K n) (a : Ans K n) : Prop :=
  a.ok = true → p.nrm (defect p.A b a.x) ≤ p.tol * p.nrm b ∧ 0 ≤ a.iter ∧ a.iter ≤ p.maxit

/-- With a linear operator, whatever the outcome: the returned vector is at least as good as the
starting point and the reported residual is the true one. -/
def Monotone (p : Par K n) (x0 b : RVec K n) (a : Ans K n) : Prop :=
  p.nrm (defect p.A b a.x) ≤ p.nrm (defect p.A b x0) ∧ a.absr = p.nrm (defect p.A b a.x)

theorem finish_sound (pcg : Bool) (p : Par K n) (b : RVec K n) (c : K) (s : St K n) (ii : ℕ)
    (h : (ii = 0 + p.maxit ∧ Mid p b c (2 * ii) s s.res) ∨
      (ii < 0 + p.maxit ∧ Exit pcg p b c (p.tol * p.nrm b) ii s)) :
    Sound p b (finish p s ii) := by
  intro hok
  unfold finish at hok ⊢
  by_cases hf : s.flag = 0
  · rw [if_pos hf]
    rcases h with ⟨_, m⟩ | ⟨hi, e⟩
    · rw [m.flag] at hf; cases hf
    · obtain ⟨c1, c2, c3, c4⟩ := e.conv hf
      refine ⟨?_, c3.le, le_trans c4 ?_⟩
      · simp only; rw [← c1]; exact c2
      · have : ii + 1 ≤ p.maxit := by omega
        exact_mod_cast this
  · rw [if_neg hf] at hok
    simp only at hok
    split at hok <;> cases hok

theorem finish_monotone (pcg : Bool) (p : Par K n) (b x0 : RVec K n) (c : K) (s : St K n) (ii : ℕ)
    (hl : LinOp p.A) (hm : pcg = true ∨ p.maxit < 50)
    (h : (ii = 0 + p.maxit ∧ Mid p b c (2 * ii) s s.res) ∨
      (ii < 0 + p.maxit ∧ Exit pcg p b c (p.tol * p.nrm b) ii s))
    (hc : c = p.nrm (defect p.A b x0)) (htol : p.tol * p.nrm b ≤ c) :
    Monotone p x0 b (finish p s ii) := by
  have hcons : Cons p b c s := by
    rcases h with ⟨_, m⟩ | ⟨_, e⟩
    · exact (m.lin hl).2
    · exact e.lin hl
  unfold finish
  by_cases hf : s.flag = 0
  · rw [if_pos hf]
    rcases h with ⟨_, m⟩ | ⟨hi, e⟩
    · rw [m.flag] at hf; cases hf
    · obtain ⟨c1, c2, c3, c4⟩ := e.conv hf
      refine ⟨?_, c1⟩
      simp only; rw [← c1, ← hc]; exact le_trans c2 htol
  · rw [if_neg hf]
    have hb : s.b = b := by
      rcases h with ⟨_, m⟩ | ⟨hi, e⟩
      · exact m.b
      · rcases e.b with e1 | e1 | ⟨e1, e2⟩
        · exact absurd e1 hf
        · exact e1
        · rcases hm with hm | hm
          · rw [hm] at e1; cases e1
          · have := e.more
            omega
    simp only [hb, residual_eq]
    split
    · refine ⟨?_, rfl⟩
      simp only
      rw [← hcons.min, ← hc]; exact hcons.le
    · next hlt =>
      refine ⟨?_, hcons.absr⟩
      simp only
      push Not at hlt
      rw [← hcons.absr, ← hc]
      refine le_trans hlt.le ?_
      rw [← hcons.min]; exact hcons.le

/-- **C42, conjugate gradients.** For every operator, preconditioner, right-hand side, starting point
and leftover state: success means the true residual meets the tolerance. -/
theorem C42_pcg_sound (p : Par K n) (junk : St K n) (x0 b : RVec K n)
    (h0 : p.nrm b = 0 → b = 0) (hA : p.A 0 = 0) (hz : p.nrm 0 = 0) :
    Sound p b (pcg p junk x0 b) := by
  have zero_case : p.nrm b = 0 → p.nrm (defect p.A b b) ≤ p.tol * p.nrm b := by
    intro hb
    have e : b = 0 := h0 hb
    have : defect p.A b b = 0 := by
      funext i; rw [e]; simp [defect, hA]
    rw [this, hz, hb]; simp
  unfold pcg
  split
  · next hb => exact fun _ => ⟨zero_case hb, le_rfl, Nat.cast_nonneg _⟩
  simp only
  split
  · next hb h1 =>
    refine fun _ => ⟨?_, le_rfl, Nat.cast_nonneg _⟩
    simpa only [start, residual_eq] using h1
  · exact finish_sound true p b _ _ _ (loop_ok true p b _ _ _
      (fun ii s hs => pcgStep_ok p b (p.nrm (defect p.A b x0)) _ ii s hs) p.maxit 0 _
      (start_mid p junk b x0))

/-- **C42, BiCGStab.** -/
theorem C42_bicg_sound (p : Par K n) (junk : St K n) (x0 b : RVec K n)
    (h0 : p.nrm b = 0 → b = 0) (hA : p.A 0 = 0) (hz : p.nrm 0 = 0) :
    Sound p b (bicg p junk x0 b) := by
  have zero_case : p.nrm b = 0 → p.nrm (defect p.A b b) ≤ p.tol * p.nrm b := by
    intro hb
    have e : b = 0 := h0 hb
    have : defect p.A b b = 0 := by
      funext i; rw [e]; simp [defect, hA]
    rw [this, hz, hb]; simp
  unfold bicg
  split
  · next hb => exact fun _ => ⟨zero_case hb, le_rfl, Nat.cast_nonneg _⟩
  simp only
  split
  · next hb h1 =>
    refine fun _ => ⟨?_, le_rfl, Nat.cast_nonneg _⟩
    simpa only [start, residual_eq] using h1
  · exact finish_sound false p b _ _ _ (loop_ok false p b _ _ _
      (fun ii s hs => bicgStep_ok p _ b (p.nrm (defect p.A b x0)) _ ii s hs) p.maxit 0 _
      (start_mid p junk b x0))

/-- **C42, conjugate gradients, any outcome.** For linear operators the returned vector is never
worse than the starting point and the reported residual is the true one. -/
theorem C42_pcg_monotone (p : Par K n) (junk : St K n) (x0 b : RVec K n) (hl : LinOp p.A)
    (hb : p.nrm b ≠ 0) : Monotone p x0 b (pcg p junk x0 b) := by
  unfold pcg
  rw [if_neg hb]
  simp only
  split
  · exact ⟨le_rfl, by simp only [start, residual_eq]⟩
  · next h1 =>
    push Not at h1
    exact finish_monotone true p b x0 _ _ _ hl (Or.inl rfl) (loop_ok true p b _ _ _
      (fun ii s hs => pcgStep_ok p b (p.nrm (defect p.A b x0)) _ ii s hs) p.maxit 0 _
      (start_mid p junk b x0)) rfl (by simpa only [start, residual_eq] using h1.le)

/-- **C42, BiCGStab, any outcome (partial).** Same for BiCGStab with an iteration limit below 50.
Missing: larger limits, for which the right-hand side may have been overwritten before the last
comparison (`C42_bicg_giveup_overwrites`). -/
theorem C42_bicg_monotone_partial (p : Par K n) (junk : St K n) (x0 b : RVec K n) (hl : LinOp p.A)
    (hb : p.nrm b ≠ 0) (hm : p.maxit < 50) : Monotone p x0 b (bicg p junk x0 b) := by
  unfold bicg
  rw [if_neg hb]
  simp only
  split
  · exact ⟨le_rfl, by simp only [start, residual_eq]⟩
  · next h1 =>
    push Not at h1
    exact finish_monotone false p b x0 _ _ _ hl (Or.inr hm) (loop_ok false p b _ _ _
      (fun ii s hs => bicgStep_ok p _ b (p.nrm (defect p.A b x0)) _ ii s hs) p.maxit 0 _
      (start_mid p junk b x0)) rfl (by simpa only [start, residual_eq] using h1.le)

/-- **C42, BiCGStab, deviation.** When the check gives up (100 extra steps), the right-hand side has
been replaced by the iterate, so the last comparison measures `xk - A xmin` instead of
`b - A xmin` and decides by it which vector is returned. -/
theorem C42_bicg_giveup_overwrites (p : Par K n) (tolb it : K) (s : St K n) (r : RVec K n) (ii : ℕ)
    (h1 : ¬ p.nrm (defect p.A s.b s.xk) ≤ tolb) (h2 : 99 ≤ s.more) :
    (check false p tolb it s r).2.2 = true ∧
    finish p (check false p tolb it s r).1 ii =
      if p.nrm (defect p.A s.xk s.xmin) ≤ p.nrm (defect p.A s.b s.xk) then
        ⟨false, s.xmin, s.xk, s.imin + 1, p.nrm (defect p.A s.xk s.xmin)⟩
      else ⟨false, s.xk, s.xk, ii + 1, p.nrm (defect p.A s.b s.xk)⟩ := by
  have e : p.nrm r ≤ tolb ∨ 3 ≤ s.stag ∨ s.more ≠ 0 := Or.inr (Or.inr (by omega))
  have h3 : 100 ≤ s.more + 1 := by omega
  simp only [check, residual_eq, if_pos e, if_neg h1, if_pos h3, finish]
  simp

/-! ### Concrete runs -/

/-- Operator `diag(1,2)`, maximum norm, no preconditioner, tolerance 1/1000. -/
def exPar : Par ℚ 2 where
  A := fun x i => if i = 0 then x 0 else 2 * x 1
  ML := none
  MR := none
  nrm := infnorm
  dot := dot
  tol := 1 / 1000
  eps := 1 / 10 ^ 16
  maxit := 5

/-- Leftovers. -/
def exJunk : St ℚ 2 :=
  ⟨0, 0, 0, fun _ => 7, fun _ => 7, 0, 3, 3, 3, 3, 3, 3, 3, 3, 3, 3⟩

/-- Both methods converge on the instance in two iterations, so the hypothesis of `Sound` is met. -/
example : (pcg exPar exJunk (fun _ => 0) (fun _ => 1)).ok = true ∧
    (pcg exPar exJunk (fun _ => 0) (fun _ => 1)).iter = 2 := by decide +kernel
example : (bicg exPar exJunk (fun _ => 0) (fun _ => 1)).ok = true ∧
    0 < (bicg exPar exJunk (fun _ => 0) (fun _ => 1)).iter := by decide +kernel

theorem exPar_zero : exPar.A 0 = 0 ∧ exPar.nrm 0 = 0 ∧ LinOp exPar.A := by
  refine ⟨?_, by decide +kernel, ?_⟩
  · funext i; simp only [exPar]; split <;> simp
  · intro x y a; funext i; simp only [exPar]; split
    · rfl
    · ring

example : infnorm (defect exPar.A (fun _ => 1) (pcg exPar exJunk (fun _ => 0) (fun _ => 1)).x)
    ≤ 1 / 1000 * infnorm (fun _ : Fin 2 => (1 : ℚ)) :=
  (C42_pcg_sound exPar exJunk (fun _ => 0) (fun _ => 1)
    (fun h => absurd h (by decide +kernel)) exPar_zero.1 exPar_zero.2.1 (by decide +kernel)).1
example : infnorm (defect exPar.A (fun _ => 1) (bicg exPar exJunk (fun _ => 0) (fun _ => 1)).x)
    ≤ 1 / 1000 * infnorm (fun _ : Fin 2 => (1 : ℚ)) :=
  (C42_bicg_sound exPar exJunk (fun _ => 0) (fun _ => 1)
    (fun h => absurd h (by decide +kernel)) exPar_zero.1 exPar_zero.2.1 (by decide +kernel)).1

/-- With one iteration allowed neither method converges; the monotonicity theorem applies. -/
example : (bicg { exPar with maxit := 1 } exJunk (fun _ => 0) (fun _ => 1)).ok = false ∧
    Monotone { exPar with maxit := 1 } (fun _ => 0) (fun _ => 1)
      (bicg { exPar with maxit := 1 } exJunk (fun _ => 0) (fun _ => 1)) :=
  ⟨by decide +kernel, C42_bicg_monotone_partial _ _ _ _ exPar_zero.2.2 (by decide +kernel)
    (by decide)⟩

/-- **C42, reported iterations, deviation.** A failed solve can report more iterations than the
limit: after one allowed iteration the count is 2. -/
theorem C42_failed_iteration_count :
    (pcg { exPar with maxit := 1 } exJunk (fun _ => 0) (fun _ => 1)).ok = false ∧
    (bicg { exPar with maxit := 1 } exJunk (fun _ => 0) (fun _ => 1)).ok = false ∧
    (bicg { exPar with maxit := 1 } exJunk (fun _ => 0) (fun _ => 1)).iter = 2 := by
  decide +kernel

/-! ## Solving into iterate objects -/

/-- The caller's object receives the solution if it is the object of the first call. -/
theorem C42_into_first_partial (solve : RVec K n → Ans K n) (m : Mem K n) (xsol : ℕ)
    (rhs : RVec K n) (h : m.bound = none ∨ m.bound = some xsol) :
    (solveInto solve m xsol rhs).1.obj xsol = (solve rhs).x ∧
    (solveInto solve m xsol rhs).1.bound = some xsol ∧
    (∀ j, j ≠ xsol → (solveInto solve m xsol rhs).1.obj j = m.obj j) ∧
    (solveInto solve m xsol rhs).2 = (solve rhs).ok := by
  have e : m.bound.getD xsol = xsol := by rcases h with h | h <;> simp [h]
  simp only [solveInto, e]
  refine ⟨by simp, trivial, fun j hj => by simp [hj], trivial⟩

/-- **C42, deviation.** Any later call with another object leaves that object unchanged and writes the
solution into the object of the first call; this is the sequence Newton step (into `dir`) followed
by soft feasibility restoration (into `soc_dir`). -/
theorem C42_into_other_object (solve : RVec K n → Ans K n) (m : Mem K n) (dir soc : ℕ)
    (rhs1 rhs2 : RVec K n) (hne : soc ≠ dir) (h : m.bound = none) :
    let m1 := (solveInto solve m dir rhs1).1
    let m2 := (solveInto solve m1 soc rhs2).1
    m2.obj soc = m.obj soc ∧ m2.obj dir = (solve rhs2).x := by
  simp [solveInto, h, hne]

/-- **C42, deviation.** The direction computation with iterative refinement reports success although
the Krylov solve failed to meet its tolerance. -/
theorem C42_ir_reports_success_refuted :
    ∃ (p : Par ℚ 2) (junk : St ℚ 2) (rhs : RVec ℚ 2) (m : Mem ℚ 2),
      (directionsIR p.maxit (fun _ => none) (bicg p junk (fun _ => 0)) m 0 rhs).2 = true ∧
      ¬ p.nrm (defect p.A rhs ((directionsIR p.maxit (fun _ => none) (bicg p junk (fun _ => 0)) m 0
        rhs).1.obj 0)) ≤ p.tol * p.nrm rhs := by
  refine ⟨{ exPar with maxit := 1 }, exJunk, fun _ => 1, ⟨fun _ _ => 0, none⟩, ?_⟩
  decide +kernel

end Hiop.Krylov
