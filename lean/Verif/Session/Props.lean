import Verif.Session.Model
import Mathlib.Tactic.Tauto
import Mathlib.Data.Rat.Defs

/-!
# C75: running again is like running anew

The specification is `fresh`: what a run of a new solver for a new problem object with the same options starts
with. It does not refer to the model's functions.
-/

namespace Hiop.Session

variable {B Sc M X : Type}

/-- The pointer to the newest scaling. -/
def newest (l : List Sc) : Ptr Sc := match l.getLast? with
  | none => .null
  | some s => .to s

/-- What a run with options `o` starts with if nothing happened before. -/
def fresh (P : Problem B Sc) (o : Opt) : Start B Sc M X where
  opt := o
  bounds := match P.scaleOf o o [] with
    | none => P.bounds o
    | some s => P.scaleB s (P.bounds o)
  scals := (P.scaleOf o o []).toList
  n := P.size o
  mem := .fresh o.hess
  mu := o.mu0
  from_ := .user
  nsc := match P.scaleOf o o [] with
    | none => .null
    | some s => .to s

/-- The start of a run after `σ`, if there is a solver. -/
def nextStart (P : Problem B Sc) (σ : St B Sc M X) : Option (Start B Sc M X) :=
  σ.sol.map fun s => (begin_ P σ.form s).2.2

/-- `nextStart` is what a run records. -/
theorem nextStart_recorded (P : Problem B Sc) (σ : St B Sc M X) (l : Left B M X) (st : Start B Sc M X)
    (h : nextStart P σ = some st) : (step P σ (.run l)).starts = st :: σ.starts := by
  unfold nextStart at h
  cases hs : σ.sol with
  | none => simp [hs] at h
  | some s =>
    simp only [hs, Option.map_some, Option.some.injEq] at h
    simp only [step, hs, h]

theorem finalize_opt (P : Problem B Sc) (f : Form B Sc) : (finalize P f).opt = f.opt := by
  unfold finalize; split <;> rfl

theorem finalize_saved (P : Problem B Sc) (f : Form B Sc) :
    (finalize P f).saved = some (f.opt.fixedVar, f.opt.fixedTol) := by
  unfold finalize; split
  · assumption
  · rfl

/-- The initialization looks only at these options. -/
structure Local (P : Problem B Sc) : Prop where
  bounds : ∀ o o', o.fixedVar = o'.fixedVar → o.fixedTol = o'.fixedTol → o.relax = o'.relax → P.bounds o = P.bounds o'
  size : ∀ o o', o.fixedVar = o'.fixedVar → o.fixedTol = o'.fixedTol → P.size o = P.size o'

/-- What is always true of a problem object. -/
structure Inv (P : Problem B Sc) (f : Form B Sc) : Prop where
  saved : f.saved = none ∧ f.nsc = .null ∨ f.saved = some (f.init.fixedVar, f.init.fixedTol)
  n : f.n = P.size f.init
  nsc : f.nsc = .dangling ∧ f.scals = [] ∨ f.nsc = newest f.scals

theorem Inv.finalize {P : Problem B Sc} {f : Form B Sc} (h : Inv P f) : Inv P (finalize P f) := by
  unfold Session.finalize
  split
  · exact h
  · refine ⟨Or.inr rfl, rfl, ?_⟩
    simp only
    rcases hn : f.nsc with _ | s | _
    · exact Or.inr rfl
    · exact Or.inl ⟨rfl, trivial⟩
    · exact Or.inl ⟨rfl, trivial⟩

theorem Inv.scaling {P : Problem B Sc} {f : Form B Sc} (h : Inv P f)
    (hs : f.saved = some (f.init.fixedVar, f.init.fixedTol)) : Inv P (applyScaling P f) := by
  unfold applyScaling
  split
  · exact h
  · exact ⟨Or.inr hs, h.n, Or.inr (by simp [newest])⟩

theorem Inv.saved_finalize {P : Problem B Sc} {f : Form B Sc} (h : Inv P f) :
    (Session.finalize P f).saved =
      some ((Session.finalize P f).init.fixedVar, (Session.finalize P f).init.fixedTol) := by
  rcases h.finalize.saved with h' | h'
  · rw [finalize_saved] at h'; exact absurd h'.1 (by simp)
  · exact h'

theorem begin_form (P : Problem B Sc) (f : Form B Sc) (s : Solver M X) :
    (begin_ P f s).1 = finalize P f ∨ (begin_ P f s).1 = applyScaling P (finalize P f) := by
  unfold begin_
  simp only
  split <;> split <;> tauto

theorem Inv.begin_ {P : Problem B Sc} {f : Form B Sc} (h : Inv P f) (s : Solver M X) :
    Inv P (Session.begin_ P f s).1 := by
  rcases begin_form P f s with e | e
  · rw [e]; exact h.finalize
  · rw [e]; exact h.finalize.scaling h.saved_finalize

theorem Inv.step {P : Problem B Sc} {σ : St B Sc M X} (h : Inv P σ.form) (op : Op B M X) :
    Inv P (step P σ op).form := by
  cases op with
  | set o => exact ⟨h.saved, h.n, h.nsc⟩
  | solver qn => exact h.finalize
  | run l =>
    simp only [Session.step]
    split
    · exact h
    · rename_i s _
      have := h.begin_ s
      exact ⟨this.saved, this.n, this.nsc⟩
  | load mu m x =>
    simp only [Session.step]
    split
    · exact h
    · split <;> exact h

theorem foldl_inv {α β : Type} (f : α → β → α) (I : α → Prop) (hstep : ∀ a b, I a → I (f a b)) (l : List β) (a : α)
    (h : I a) : I (l.foldl f a) := by
  induction l generalizing a with
  | nil => exact h
  | cons b l ih => exact ih _ (hstep a b h)

theorem Inv.history (P : Problem B Sc) (o : Opt) (ops : List (Op B M X)) : Inv P (history P o ops).form := by
  unfold Session.history
  refine foldl_inv _ (fun σ : St B Sc M X => Inv P σ.form) (fun a b h => h.step b) ops _ ?_
  exact ⟨Or.inl ⟨rfl, rfl⟩, rfl, Or.inr rfl⟩

/-! ### What always holds -/

/-- **C75 (first run).** The first run of a problem object starts with what the options at the construction of the
solver say; the iterations see the options of that moment. -/
theorem C75_first_run (P : Problem B Sc) (o₀ o : Opt) (qn : Bool) (l : Left B M X) (ho : qn = true → o.loadFile = false) :
    (history P o₀ [.set o, .solver qn, .run l]).starts = [fresh P o] := by
  have hl : ¬ (qn = true ∧ o.loadFile = true) := fun h => by rw [ho h.1] at h; simp at h
  simp only [history, List.foldl_cons, List.foldl_nil, step, newForm, newSolver, begin_, finalize, finish,
    applyScaling]
  simp only [reduceCtorEq, if_false, if_true, Bool.false_eq_true, or_false, hl]
  unfold fresh
  cases P.scaleOf o o [] <;> rfl

/-- **C75 (parameters).** After every history a run uses the options as they are at its beginning for everything
that is read by `reload_options` or later (tolerances, limits, …), starts with the initial barrier parameter of
these options, and works with as many variables as the present handling of fixed variables leaves. -/
theorem C75_parameters (P : Problem B Sc) (hP : Local P) (o : Opt) (ops : List (Op B M X)) (st : Start B Sc M X)
    (h : nextStart P (history P o ops) = some st) :
    st.opt = (history P o ops).form.opt ∧ st.mu = (history P o ops).form.opt.mu0 ∧
    st.n = P.size (history P o ops).form.opt := by
  have hi := Inv.history P o ops
  generalize history P o ops = σ at h hi ⊢
  unfold nextStart at h
  cases hs : σ.sol with
  | none => simp [hs] at h
  | some s =>
    simp only [hs, Option.map_some, Option.some.injEq] at h
    have hn : (finalize P σ.form).n = P.size σ.form.opt := by
      rw [hi.finalize.n]
      have := hi.saved_finalize
      rw [finalize_saved] at this
      simp only [Option.some.injEq, Prod.mk.injEq] at this
      exact hP.size _ _ this.1.symm this.2.symm
    subst h
    unfold begin_
    simp only
    split
    · split
      · exact ⟨finalize_opt P _, by rw [finalize_opt], hn⟩
      · refine ⟨?_, by rw [finalize_opt], ?_⟩
        · simp only [applyScaling]; split <;> exact finalize_opt P _
        · simp only [applyScaling]; split <;> exact hn
    · split
      · exact ⟨finalize_opt P _, by rw [finalize_opt], hn⟩
      · refine ⟨?_, by rw [finalize_opt], ?_⟩
        · simp only [applyScaling]; split <;> exact finalize_opt P _
        · simp only [applyScaling]; split <;> exact hn

/-- **C75 (reinitialization).** If the handling of fixed variables was changed since the last initialization, then
after every history bounds and scalings of the next run that uses the starting procedure are those of a new problem
object, whatever earlier runs did to them; the quasi-Newton memory is new if the number of variables changed. -/
theorem C75_reinitialized (P : Problem B Sc) (σ : St B Sc M X) (st : Start B Sc M X)
    (h : nextStart P σ = some st) (hu : st.from_ = .user)
    (hc : σ.form.saved ≠ some (σ.form.opt.fixedVar, σ.form.opt.fixedTol)) :
    st.bounds = (fresh (M := M) (X := X) P σ.form.opt).bounds ∧
    st.scals = (fresh (M := M) (X := X) P σ.form.opt).scals ∧ st.n = P.size σ.form.opt ∧
    ∀ s, σ.sol = some s → s.n ≠ P.size σ.form.opt → st.mem = .fresh σ.form.opt.hess := by
  unfold nextStart at h
  cases hs : σ.sol with
  | none => simp [hs] at h
  | some s =>
    simp only [hs, Option.map_some, Option.some.injEq] at h
    have hf : finalize P σ.form = { σ.form with
        saved := some (σ.form.opt.fixedVar, σ.form.opt.fixedTol)
        init := σ.form.opt
        cur := P.bounds σ.form.opt
        scals := []
        nsc := match σ.form.nsc with
          | .null => .null
          | _ => .dangling
        n := P.size σ.form.opt } := by
      unfold finalize; rw [if_neg hc]; rfl
    subst h
    unfold begin_ at hu ⊢
    simp only [hf] at hu ⊢
    have hmem : ∀ s', some s = some s' → s'.n ≠ P.size σ.form.opt → s.n ≠ P.size σ.form.opt := by
      rintro s' e; cases e; exact id
    by_cases hn : s.n = P.size σ.form.opt
    · simp only [hn, if_true] at hu ⊢
      split at hu
      · simp at hu
      · rename_i hx
        simp only [hx, if_false]
        unfold applyScaling fresh
        simp only
        cases P.scaleOf σ.form.opt σ.form.opt [] with
        | none => exact ⟨rfl, rfl, rfl, fun s' e h' => absurd hn (hmem s' e h')⟩
        | some c => exact ⟨rfl, rfl, rfl, fun s' e h' => absurd hn (hmem s' e h')⟩
    · simp only [hn, if_false] at hu ⊢
      split at hu
      · simp at hu
      · rename_i hx
        simp only [hx, if_false]
        unfold applyScaling fresh
        simp only
        cases P.scaleOf σ.form.opt σ.form.opt [] with
        | none => exact ⟨rfl, rfl, rfl, fun _ _ _ => trivial⟩
        | some c => exact ⟨rfl, rfl, rfl, fun _ _ _ => trivial⟩

/-- All `set`s of a history satisfy `Q`. -/
def Sets (Q : Opt → Prop) (ops : List (Op B M X)) : Prop := ∀ o, .set o ∈ ops → Q o

theorem mem_foldl_inv {α β : Type} (f : α → β → α) (I : α → Prop) (l : List β)
    (hstep : ∀ a, ∀ b ∈ l, I a → I (f a b)) (a : α) (h : I a) : I (l.foldl f a) := by
  induction l generalizing a with
  | nil => exact h
  | cons b l ih =>
    exact ih (fun a c hc => hstep a c (List.mem_cons_of_mem _ hc)) _ (hstep a b List.mem_cons_self h)

/-- **C75 (conversion of objectives).** As long as the handling of fixed variables is never changed, the scaling that
converts objective values and tolerances exists in every run and is the newest scaling in effect. -/
theorem C75_scaling_pointer_partial (P : Problem B Sc) (o : Opt) (ops : List (Op B M X))
    (hs : Sets (fun q => q.fixedVar = o.fixedVar ∧ q.fixedTol = o.fixedTol) ops) :
    ∀ st ∈ (history P o ops).starts, st.nsc = newest st.scals := by
  let I : St B Sc M X → Prop := fun σ =>
    σ.form.opt.fixedVar = o.fixedVar ∧ σ.form.opt.fixedTol = o.fixedTol ∧
    (σ.form.saved = none ∨ σ.form.saved = some (o.fixedVar, o.fixedTol)) ∧
    (σ.form.saved = none → σ.form.nsc = .null) ∧ σ.form.nsc = newest σ.form.scals ∧
    ∀ st ∈ σ.starts, st.nsc = newest st.scals
  have fin : ∀ f : Form B Sc, f.opt.fixedVar = o.fixedVar → f.opt.fixedTol = o.fixedTol →
      (f.saved = none ∨ f.saved = some (o.fixedVar, o.fixedTol)) → (f.saved = none → f.nsc = .null) →
      f.nsc = newest f.scals →
      (finalize P f).saved = some (o.fixedVar, o.fixedTol) ∧ (finalize P f).nsc = newest (finalize P f).scals := by
    intro f h1 h2 h3 h4 h5
    refine ⟨by rw [finalize_saved, h1, h2], ?_⟩
    unfold finalize
    split
    · exact h5
    · rename_i hne
      rcases h3 with h3 | h3
      · simp only [h4 h3]; rfl
      · exact absurd (by rw [h3, h1, h2]) hne
  have scal : ∀ f : Form B Sc, f.nsc = newest f.scals →
      (applyScaling P f).nsc = newest (applyScaling P f).scals ∧ (applyScaling P f).saved = f.saved ∧
      (applyScaling P f).opt = f.opt := by
    intro f h
    unfold applyScaling
    split
    · exact ⟨h, rfl, rfl⟩
    · exact ⟨by simp [newest], rfl, rfl⟩
  have : I (history P o ops) := by
    unfold history
    refine mem_foldl_inv _ I ops ?_ _ ⟨rfl, rfl, Or.inl rfl, fun _ => rfl, rfl, by simp⟩
    rintro σ op hop ⟨h1, h2, h3, h4, h5, h6⟩
    cases op with
    | set q => exact ⟨(hs q hop).1, (hs q hop).2, h3, h4, h5, h6⟩
    | solver qn =>
      obtain ⟨g1, g2⟩ := fin _ h1 h2 h3 h4 h5
      exact ⟨by simp only [step, newSolver, finalize_opt, h1], by simp only [step, newSolver, finalize_opt, h2],
        Or.inr g1, fun e => by rw [show (finalize P σ.form).saved = none from e] at g1; simp at g1, g2, h6⟩
    | load mu m x =>
      simp only [step]
      split
      · exact ⟨h1, h2, h3, h4, h5, h6⟩
      · split <;> exact ⟨h1, h2, h3, h4, h5, h6⟩
    | run l =>
      simp only [step]
      split
      · exact ⟨h1, h2, h3, h4, h5, h6⟩
      · rename_i s _
        obtain ⟨g1, g2⟩ := fin _ h1 h2 h3 h4 h5
        obtain ⟨c1, c2, c3⟩ := scal _ g2
        have key : ∀ r : Form B Sc × Solver M X × Start B Sc M X, r = begin_ P σ.form s →
            r.1.opt = σ.form.opt ∧ r.1.saved = some (o.fixedVar, o.fixedTol) ∧ r.1.nsc = newest r.1.scals ∧
            r.2.2.nsc = newest r.2.2.scals := by
          rintro r rfl
          unfold begin_
          simp only
          split <;> split <;>
            first
            | exact ⟨finalize_opt P _, g1, g2, g2⟩
            | exact ⟨by rw [c3, finalize_opt], by rw [c2, g1], c1, c1⟩
        obtain ⟨k1, k2, k3, k4⟩ := key _ rfl
        refine ⟨by rw [← h1]; exact congrArg Opt.fixedVar k1, by rw [← h2]; exact congrArg Opt.fixedTol k1,
          Or.inr k2, fun e => ?_, k3, ?_⟩
        · have : (begin_ P σ.form s).1.saved = none := e
          rw [k2] at this; simp at this
        · intro st hst
          rcases List.mem_cons.1 hst with rfl | hst
          · exact k4
          · exact h6 st hst
  exact this.2.2.2.2.2

/-- Every run of the history left the bounds as it found them. -/
def Keeps (P : Problem B Sc) : St B Sc M X → List (Op B M X) → Prop
  | _, [] => True
  | σ, op :: ops => (match op with
      | .run l => ∀ st, nextStart P σ = some st → l.bounds = st.bounds
      | .load _ _ _ => False
      | .solver qn => qn = false
      | .set _ => True) ∧ Keeps P (step P σ op) ops

/-- **C75 (rerun).** With the Newton solver and a problem that needs no scaling, as long as no run moves bounds and the
options for the relaxation of bounds stay the same, every run starts with exactly what a run of a new solver for a
new problem object would start with. (Missing for the full property because false: quasi-Newton solvers, scaled
problems, moved bounds and changed relaxations; see the refutations.) -/
theorem C75_rerun_partial (P : Problem B Sc) (hP : Local P) (hsc : ∀ i o, P.scaleOf i o [] = none) (o : Opt)
    (ops : List (Op B M X)) (hr : Sets (fun q => q.relax = o.relax) ops) (hh : ∀ q, .set q ∈ ops → q.hess = o.hess)
    (hk : Keeps P ⟨newForm P o, none, []⟩ ops) (st : Start B Sc M X)
    (h : nextStart P (history P o ops) = some st) : st = fresh P (history P o ops).form.opt := by
  let I : St B Sc M X → Prop := fun σ =>
    σ.form.opt.relax = o.relax ∧ σ.form.opt.hess = o.hess ∧ σ.form.init.relax = o.relax ∧
    (σ.form.saved = none ∨ σ.form.saved = some (σ.form.init.fixedVar, σ.form.init.fixedTol)) ∧
    σ.form.cur = P.bounds σ.form.init ∧ σ.form.n = P.size σ.form.init ∧ σ.form.scals = [] ∧ σ.form.nsc = .null ∧
    ∀ s, σ.sol = some s → s.qn = false ∧ s.mem = .fresh o.hess
  have fin : ∀ σ : St B Sc M X, I σ → I { σ with form := finalize P σ.form } ∧
      (finalize P σ.form).cur = P.bounds σ.form.opt ∧ (finalize P σ.form).n = P.size σ.form.opt := by
    rintro σ ⟨h1, h2, h3, h4, h5, h6, h7, h8, h9⟩
    unfold finalize
    split
    · rename_i e
      refine ⟨⟨h1, h2, h3, h4, h5, h6, h7, h8, h9⟩, ?_⟩
      rcases h4 with h4 | h4
      · rw [h4] at e; simp at e
      · rw [h4] at e
        simp only [Option.some.injEq, Prod.mk.injEq] at e
        exact ⟨by rw [h5]; exact hP.bounds _ _ e.1 e.2 (by rw [h3, h1]),
          by rw [h6]; exact hP.size _ _ e.1 e.2⟩
    · refine ⟨⟨h1, h2, h1, Or.inr rfl, rfl, rfl, rfl, ?_, h9⟩, rfl, rfl⟩
      simp only [h8]
  have noscale : ∀ f : Form B Sc, f.scals = [] → applyScaling P f = f := by
    intro f hf
    unfold applyScaling
    rw [hf, hsc]
  have beg : ∀ σ : St B Sc M X, I σ → ∀ s, σ.sol = some s →
      (begin_ P σ.form s).1 = finalize P σ.form ∧ (begin_ P σ.form s).2.1.qn = false ∧
      (begin_ P σ.form s).2.1.mem = .fresh o.hess ∧ (begin_ P σ.form s).2.2 = fresh P σ.form.opt := by
    intro σ hI s hs
    obtain ⟨g, gc, gn⟩ := fin σ hI
    obtain ⟨h1, h2, h3, h4, h5, h6, h7, h8, h9⟩ := g
    obtain ⟨q1, q2⟩ := h9 s hs
    have hI2 := hI.2.1
    simp only at h7 h8
    unfold begin_
    simp only
    have fr : fresh (M := M) (X := X) P σ.form.opt =
        ⟨σ.form.opt, P.bounds σ.form.opt, [], P.size σ.form.opt, .fresh o.hess, σ.form.opt.mu0, .user, .null⟩ := by
      unfold fresh; rw [hsc, hI2]; rfl
    split
    · simp only [q1, Bool.false_eq_true, false_and, if_false, noscale _ h7]
      exact ⟨trivial, trivial, q2, by rw [fr, finalize_opt, gc, gn, h7, h8, q2]⟩
    · simp only [q1, Bool.false_eq_true, false_and, if_false, noscale _ h7]
      exact ⟨trivial, trivial, by rw [finalize_opt, hI2],
        by rw [fr, finalize_opt, gc, gn, h7, h8, hI2]⟩
  have main : ∀ (ops : List (Op B M X)) (σ : St B Sc M X), I σ → Sets (fun q => q.relax = o.relax) ops →
      (∀ q, .set q ∈ ops → q.hess = o.hess) → Keeps P σ ops → I (ops.foldl (step P) σ) := by
    intro ops
    induction ops with
    | nil => intro σ hI _ _ _; exact hI
    | cons op ops ih =>
      intro σ hI hS hH hK
      obtain ⟨hK1, hK2⟩ := hK
      refine ih _ ?_ (fun q hq => hS q (List.mem_cons_of_mem _ hq)) (fun q hq => hH q (List.mem_cons_of_mem _ hq)) hK2
      cases op with
      | set q =>
        obtain ⟨h1, h2, h3, h4, h5, h6, h7, h8, h9⟩ := hI
        exact ⟨hS q List.mem_cons_self, hH q List.mem_cons_self, h3, h4, h5, h6, h7, h8, h9⟩
      | solver qn =>
        obtain ⟨⟨h1, h2, h3, h4, h5, h6, h7, h8, h9⟩, gc, gn⟩ := fin σ hI
        simp only at hK1
        refine ⟨h1, h2, h3, h4, h5, h6, h7, h8, ?_⟩
        intro s hs
        simp only [step, newSolver, Option.some.injEq] at hs
        subst hs
        exact ⟨hK1, by rw [show (finalize P σ.form).opt.hess = o.hess from h2]⟩
      | load => exact hK1.elim
      | run l =>
        simp only [step]
        split
        · exact hI
        · rename_i s hs
          obtain ⟨b1, b2, b3, b4⟩ := beg σ hI s hs
          obtain ⟨⟨h1, h2, h3, h4, h5, h6, h7, h8, h9⟩, gc, gn⟩ := fin σ hI
          simp only at hK1
          have hb := hK1 (begin_ P σ.form s).2.2 (by simp [nextStart, hs])
          have hb' : l.bounds = (finalize P σ.form).cur := by
            rw [hb, b4, gc]; unfold fresh; rw [hsc]
          simp only [finish, b1]
          refine ⟨h1, h2, h3, h4, ?_, h6, h7, h8, ?_⟩
          · simp only; rw [hb']; exact h5
          · intro s' hs'
            simp only [Option.some.injEq] at hs'
            subst hs'
            refine ⟨b2, ?_⟩
            simp only [b2, Bool.false_eq_true, if_false]; exact b3
  have hI : I (history P o ops) :=
    main ops _ ⟨rfl, rfl, rfl, Or.inl rfl, rfl, rfl, rfl, rfl, by simp⟩ hr hh hk
  unfold nextStart at h
  cases hs : (history P o ops).sol with
  | none => simp [hs] at h
  | some s =>
    simp only [hs, Option.map_some, Option.some.injEq] at h
    rw [← h]; exact (beg _ hI s hs).2.2.2

/-- **C75 (loaded states).** After a state was loaded, every run of the solver, not only the next one, skips the
starting procedure, whatever is done in between; and none starts with the loaded barrier parameter unless it is the
one in the options. -/
theorem C75_load_sticky (P : Problem B Sc) (σ : St B Sc M X) (ops : List (Op B M X))
    (hs : ∃ s, σ.sol = some s ∧ s.qn = true ∧ s.loaded = true) (hno : ∀ qn, .solver qn ∉ ops) (st : Start B Sc M X)
    (h : nextStart P (ops.foldl (step P) σ) = some st) :
    st.from_ ≠ .user ∧ st.mu = (ops.foldl (step P) σ).form.opt.mu0 := by
  have beg : ∀ (f : Form B Sc) (s : Solver M X), s.qn = true → s.loaded = true →
      (begin_ P f s).2.1.qn = true ∧ (begin_ P f s).2.1.loaded = true ∧ (begin_ P f s).2.2.from_ ≠ .user ∧
      (begin_ P f s).2.2.mu = f.opt.mu0 := by
    intro f s h1 h2
    unfold begin_
    simp only
    split <;> simp [h1, h2, finalize_opt]
  have : ∃ s, (ops.foldl (step P) σ).sol = some s ∧ s.qn = true ∧ s.loaded = true := by
    refine mem_foldl_inv _ (fun σ => ∃ s, σ.sol = some s ∧ s.qn = true ∧ s.loaded = true) ops ?_ σ hs
    rintro τ op hop ⟨s, h1, h2, h3⟩
    cases op with
    | set o => exact ⟨s, h1, h2, h3⟩
    | solver qn => exact absurd hop (hno qn)
    | run l =>
      obtain ⟨b1, b2, _⟩ := beg τ.form s h2 h3
      exact ⟨(finish (begin_ P τ.form s).1 (begin_ P τ.form s).2.1 l).2, by simp only [step, h1], b1, b2⟩
    | load mu m x => exact ⟨{ s with mu := mu, mem := .used m, it := some x, loaded := true },
        by simp only [step, h1, h2, if_true], h2, rfl⟩
  obtain ⟨s, h1, h2, h3⟩ := this
  simp only [nextStart, h1, Option.map_some, Option.some.injEq] at h
  obtain ⟨_, _, b3, b4⟩ := beg (ops.foldl (step P) σ).form s h2 h3
  rw [← h]; exact ⟨b3, b4⟩

/-! ### Examples and refutations -/

/-- A problem: bounds `[0, 8]` relaxed by the relaxation option, a fixed variable that is removed for `fixedVar = 1`,
objective gradient 200, scaled to 100 by the rule of `apply_scaling` and `hiopNLPObjGradScaling` if `scaling ≠ 0`. -/
def exP : Problem (ℤ × ℤ) ℚ where
  bounds o := (-o.relax, 8 + o.relax)
  size o := if o.fixedVar = 1 then 2 else 3
  scaleOf _ o l :=
    if o.scaling = 0 then none
    else
      let g : ℚ := l.foldl (· * ·) 200
      if g < 100 then none else some (if g > 100 then 100 / g else 1)
  scaleB _ b := b

theorem exP_local : Local exP := by
  constructor
  · intro o o' _ _ h; simp [exP, h]
  · intro o o' h _; simp [exP, h]

def exO : Opt := ⟨0, 0, 1, 0, 6, 10, 0, false⟩

/-- What a run leaves that moves no bounds. -/
def calm : Left (ℤ × ℤ) ℕ ℕ := ⟨(-1, 9), 7, 5, 0⟩

/-- The hypotheses of `C75_rerun_partial` are met by three runs with two solvers and changed options. -/
example : ∃ st, nextStart exP (history exP exO [.solver false, .run calm, .set { exO with params := 3, mu0 := 2 },
    .run calm, .solver false]) = some st ∧ st = fresh exP { exO with params := 3, mu0 := 2 } := by
  refine ⟨_, rfl, ?_⟩
  refine C75_rerun_partial (M := ℕ) (X := ℕ) { exP with scaleOf := fun _ _ _ => none }
    ⟨exP_local.1, exP_local.2⟩ (fun _ _ => rfl) exO [.solver false, .run calm, .set { exO with params := 3, mu0 := 2 },
    .run calm, .solver false] ?_ ?_ ?_ _ (by decide +kernel)
  · intro o ho; simp at ho; rw [ho]
  · intro o ho; simp at ho; rw [ho]
  · refine ⟨rfl, ?_, trivial, ?_, rfl, trivial⟩
    · intro st h; cases h; rfl
    · intro st h; cases h; rfl

/-- The starts of the runs of a history, oldest first. -/
def starts (ops : List (Op (ℤ × ℤ) ℕ ℕ)) : List (Start (ℤ × ℤ) ℚ ℕ ℕ) := (history exP exO ops).starts.reverse

/-- A second run inherits the bounds that the first one moved. -/
theorem C75_moved_bounds_refuted :
    ∃ a b, starts [.solver false, .run ⟨(-2, 9), 7, 5, 0⟩, .run calm] = [a, b] ∧ a = fresh exP exO ∧
      b.opt = exO ∧ b.bounds ≠ (fresh (M := ℕ) (X := ℕ) exP exO).bounds :=
  ⟨_, _, rfl, by decide +kernel, by decide +kernel, by decide +kernel⟩

/-- A second run of a scaled problem is scaled a second time, by one, and objective values are then converted by
the second factor only. -/
theorem C75_scaled_twice_refuted :
    ∃ a b, starts [.set { exO with scaling := 1 }, .solver false, .run calm, .run calm] = [a, b] ∧
      a = fresh exP { exO with scaling := 1 } ∧ a.scals = [1/2] ∧ a.nsc = .to (1/2) ∧
      b.opt = a.opt ∧ b.scals = [1/2, 1] ∧ b.nsc = .to 1 :=
  ⟨_, _, rfl, by decide +kernel, by decide +kernel, by decide +kernel, by decide +kernel, by decide +kernel,
    by decide +kernel⟩

/-- A relaxation of bounds that is set after the construction of the solver is ignored, even by the first run. -/
theorem C75_relaxation_refuted :
    ∃ a, starts [.solver false, .set { exO with relax := 4 }, .run calm] = [a] ∧ a.opt.relax = 4 ∧
      a.bounds ≠ (fresh (M := ℕ) (X := ℕ) exP { exO with relax := 4 }).bounds :=
  ⟨_, rfl, by decide +kernel, by decide +kernel⟩

/-- A second run of a quasi-Newton solver keeps the memory of the first one, also if the option for its length was
changed. -/
theorem C75_memory_refuted :
    ∃ a b, starts [.solver true, .run calm, .set { exO with hess := 2 }, .run calm] = [a, b] ∧
      a.mem = .fresh 6 ∧ b.opt.hess = 2 ∧ b.mem = .used 7 :=
  ⟨_, _, rfl, by decide +kernel, by decide +kernel, by decide +kernel⟩

/-- Changing the handling of fixed variables after a scaled run, to a problem that needs no scaling, leaves the
conversion of objectives with a pointer to a deleted object. -/
theorem C75_dangling_refuted :
    ∃ a b, starts [.set { exO with scaling := 1 }, .solver false, .run calm,
        .set { exO with scaling := 0, fixedVar := 1 }, .run calm] = [a, b] ∧ a.nsc = .to (1/2) ∧ b.scals = [] ∧
      b.nsc = .dangling :=
  ⟨_, _, rfl, by decide +kernel, by decide +kernel, by decide +kernel⟩

/-- A loaded state replaces the starting procedure of all later runs; the barrier parameter of the state is lost. -/
theorem C75_load_refuted :
    ∃ a b, starts [.solver true, .load 3 7 5, .run calm, .set { exO with params := 9 }, .run ⟨(-1, 9), 8, 6, 0⟩] = [a, b] ∧
      a.from_ = .iterate (some 5) ∧ a.mu = 10 ∧ b.from_ = .iterate (some 5) :=
  ⟨_, _, rfl, by decide +kernel, by decide +kernel, by decide +kernel⟩

/-- A reinitialization with a changed size: the example meets the hypotheses of `C75_reinitialized`. -/
example : ∃ st, nextStart exP (history exP exO [.solver true, .run ⟨(-2, 9), 7, 5, 0⟩, .set { exO with fixedVar := 1 }])
    = some st ∧ st.from_ = .user ∧ st.bounds = (-1, 9) ∧ st.n = 2 ∧ st.mem = .fresh 6 :=
  ⟨_, rfl, by decide +kernel, by decide +kernel, by decide +kernel, by decide +kernel⟩

end Hiop.Session
