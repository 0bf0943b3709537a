import Verif.CApi.Props

/-!
# C66: matrices, memory and options of problems given through the Fortran and C interfaces
-/

namespace Hiop.CApi

variable {σ K : Type}

/-! ## Matrices of a Fortran problem -/

/-- The point of the last Jacobian evaluation. -/
def lastJac : List (EvOp K) → Option (List K)
  | [] => none
  | .jac x _ :: l => (lastJac l).or (some x)
  | .hess _ _ _ _ _ :: l => lastJac l

/-- Point, objective factor and multipliers of the last Hessian evaluation. -/
def lastHess : List (EvOp K) → Option (List K × K × List K)
  | [] => none
  | .jac _ _ :: l => lastHess l
  | .hess x _ f lam _ :: l => (lastHess l).or (some (x, f, lam))

/-- A Fortran program: asked for the structure it answers with the same one-based indices always, asked for values
with the entries of the Jacobian at the point and of the Hessian. -/
structure Program (D : FProb K) (F : FUser σ K) (jr jc hr hc : List ℤ) (jv : List K → List K)
    (hv : List K → K → List K → List K) : Prop where
  jr_len : (jr.length : ℤ) = D.nnzEq + D.nnzIneq
  jc_len : (jc.length : ℤ) = D.nnzEq + D.nnzIneq
  hr_len : (hr.length : ℤ) = D.nnzHess
  hc_len : (hc.length : ℤ) = D.nnzHess
  jac_structure : ∀ s x b p, p.i = true ∧ p.j = true →
    (F s (.jac 0 D.n D.m x b p)).2.rows = jr ∧ (F s (.jac 0 D.n D.m x b p)).2.cols = jc
  jac_values : ∀ s x b p, p.m = true → (F s (.jac 1 D.n D.m x b p)).2.vals = jv x
  hess_structure : ∀ s f x b lam c p, p.i = true ∧ p.j = true →
    (F s (.hess 0 D.n D.m f x b lam c p)).2.rows = hr ∧ (F s (.hess 0 D.n D.m f x b lam c p)).2.cols = hc
  hess_values : ∀ s f x b lam c p, p.m = true → (F s (.hess 1 D.n D.m f x b lam c p)).2.vals = hv x f lam

theorem store_structure (nnz : ℤ) (o : Out K) (r c : List ℤ) (hr : o.rows = r) (hc : o.cols = c)
    (hrl : (r.length : ℤ) = nnz) (hcl : (c.length : ℤ) = nnz) (A : Coo K) :
    ∃ o', toZeroBased ⟨true, true, false, nnz⟩ o = some o' ∧
      store ⟨true, true, false, nnz⟩ o' A = ⟨r.map (· - 1), c.map (· - 1), A.vals⟩ := by
  by_cases h : nnz ≤ 0
  · have h1 : r = [] := List.eq_nil_of_length_eq_zero (by omega)
    have h2 : c = [] := List.eq_nil_of_length_eq_zero (by omega)
    refine ⟨o, by simp [toZeroBased, task, h], ?_⟩
    simp [store, hr, hc, h1, h2]
  · refine ⟨_, by simp only [toZeroBased, task, h]; simp; rfl, ?_⟩
    simp [store, hr, hc]

/-- One evaluation with the structure known or not. -/
theorem evalWith_spec (D : FProb K) (F : FUser σ K) (req : Parts → CReq K Parts Parts) (nnz : ℤ) (r c : List ℤ)
    (v : List K) (hrl : (r.length : ℤ) = nnz) (hcl : (c.length : ℤ) = nnz)
    (h0 : ∀ s, ∃ s' o, wrapper D F s (req ⟨true, true, false, nnz⟩) =
      (toZeroBased ⟨true, true, false, nnz⟩ o).map (fun o => (s', 0, o)) ∧ o.rows = r ∧ o.cols = c)
    (h1 : ∀ s, ∃ s' o, wrapper D F s (req ⟨false, false, true, nnz⟩) = some (s', 0, o) ∧ o.vals = v)
    (first : Bool) (s : σ) (A : Coo K)
    (hA : first = false → A.rows = r.map (· - 1) ∧ A.cols = c.map (· - 1)) :
    ∃ s', evalWith D F req (patterns first nnz) s A = some (s', ⟨r.map (· - 1), c.map (· - 1), v⟩) := by
  have last : ∀ s (A : Coo K), A.rows = r.map (· - 1) ∧ A.cols = c.map (· - 1) →
      ∃ s', evalWith D F req [⟨false, false, true, nnz⟩] s A = some (s', ⟨r.map (· - 1), c.map (· - 1), v⟩) := by
    intro s A hA
    obtain ⟨s', o, e1, e2⟩ := h1 s
    exact ⟨s', by simp [evalWith, e1, store, e2, hA.1, hA.2]⟩
  cases first
  · exact last s A (hA rfl)
  · obtain ⟨s', o, e1, e2, e3⟩ := h0 s
    obtain ⟨o', q1, q2⟩ := store_structure nnz o r c e2 e3 hrl hcl A
    obtain ⟨s2, e4⟩ := last s' ⟨r.map (· - 1), c.map (· - 1), A.vals⟩ ⟨rfl, rfl⟩
    refine ⟨s2, ?_⟩
    simp only [patterns, if_true, evalWith, e1, q1, Option.map_some, q2]
    simpa only [evalWith] using e4

theorem jac_step {D : FProb K} {F : FUser σ K} {jr jc hr hc : List ℤ} {jv : List K → List K}
    {hv : List K → K → List K → List K} (h : Program D F jr jc hr hc jv hv) (a : FSt σ K) (x : List K) (b : Bool)
    (hA : a.jacDone = true → a.J.rows = jr.map (· - 1) ∧ a.J.cols = jc.map (· - 1)) :
    ∃ u, evStep D F a (.jac x b) =
      some { a with user := u, J := ⟨jr.map (· - 1), jc.map (· - 1), jv x⟩, jacDone := true } := by
  obtain ⟨u, hu⟩ := evalWith_spec D F (fun p => .jac D.n D.m x (ofBool b) p) (D.nnzEq + D.nnzIneq) jr jc (jv x)
    h.jr_len h.jc_len
    (fun s => ⟨_, _, by simp only [wrapper, and_self, if_true]; rfl,
      (h.jac_structure s x _ _ ⟨rfl, rfl⟩).1, (h.jac_structure s x _ _ ⟨rfl, rfl⟩).2⟩)
    (fun s => ⟨_, _, by simp only [wrapper, and_self, if_true]; rfl, h.jac_values s x _ _ rfl⟩)
    (!a.jacDone) a.user a.J (fun e => hA (by simpa using e))
  exact ⟨u, by simp only [evStep, hu, Option.map_some]⟩

theorem hess_step {D : FProb K} {F : FUser σ K} {jr jc hr hc : List ℤ} {jv : List K → List K}
    {hv : List K → K → List K → List K} (h : Program D F jr jc hr hc jv hv) (a : FSt σ K) (x : List K) (b : Bool)
    (f : K) (lam : List K) (c : Bool)
    (hA : a.hessDone = true → a.H.rows = hr.map (· - 1) ∧ a.H.cols = hc.map (· - 1)) :
    ∃ u, evStep D F a (.hess x b f lam c) =
      some { a with user := u, H := ⟨hr.map (· - 1), hc.map (· - 1), hv x f lam⟩, hessDone := true } := by
  obtain ⟨u, hu⟩ := evalWith_spec D F (fun p => .hess D.n D.m x (ofBool b) f lam (ofBool c) p) D.nnzHess hr hc
    (hv x f lam) h.hr_len h.hc_len
    (fun s => ⟨_, _, by simp only [wrapper, and_self, if_true]; rfl,
      (h.hess_structure s f x _ lam _ _ ⟨rfl, rfl⟩).1, (h.hess_structure s f x _ lam _ _ ⟨rfl, rfl⟩).2⟩)
    (fun s => ⟨_, _, by simp only [wrapper, and_self, if_true]; rfl, h.hess_values s f x _ lam _ _ rfl⟩)
    (!a.hessDone) a.user a.H (fun e => hA (by simpa using e))
  exact ⟨u, by simp only [evStep, hu, Option.map_some]⟩

/-- After any sequence of evaluations of Jacobians and Hessians, no null pointer is written through and no
assertion fails, and the solver holds the matrices of the last evaluations, with the indices of the Fortran program
minus one. -/
theorem C66_fortran_matrices (D : FProb K) (F : FUser σ K) (jr jc hr hc : List ℤ) (jv : List K → List K)
    (hv : List K → K → List K → List K) (h : Program D F jr jc hr hc jv hv) (u : σ) (J0 H0 : Coo K)
    (ops : List (EvOp K)) :
    ∃ a, evRun D F ⟨u, false, false, J0, H0⟩ ops = some a ∧
      a.J = (match lastJac ops with
        | none => J0
        | some x => ⟨jr.map (· - 1), jc.map (· - 1), jv x⟩) ∧
      a.H = (match lastHess ops with
        | none => H0
        | some (x, f, lam) => ⟨hr.map (· - 1), hc.map (· - 1), hv x f lam⟩) := by
  have key : ∀ (ops : List (EvOp K)) (a : FSt σ K),
      (a.jacDone = true → a.J.rows = jr.map (· - 1) ∧ a.J.cols = jc.map (· - 1)) →
      (a.hessDone = true → a.H.rows = hr.map (· - 1) ∧ a.H.cols = hc.map (· - 1)) →
      ∃ a', evRun D F a ops = some a' ∧
        a'.J = (match lastJac ops with
          | none => a.J
          | some x => ⟨jr.map (· - 1), jc.map (· - 1), jv x⟩) ∧
        a'.H = (match lastHess ops with
          | none => a.H
          | some (x, f, lam) => ⟨hr.map (· - 1), hc.map (· - 1), hv x f lam⟩) := by
    intro ops
    induction ops with
    | nil => exact fun a _ _ => ⟨a, rfl, rfl, rfl⟩
    | cons o l ih =>
      intro a h1 h2
      cases o with
      | jac x b =>
        obtain ⟨u, e⟩ := jac_step h a x b h1
        obtain ⟨a', e1, e2, e3⟩ := ih
          { a with user := u, J := ⟨jr.map (· - 1), jc.map (· - 1), jv x⟩, jacDone := true } (fun _ => ⟨rfl, rfl⟩) h2
        refine ⟨a', by simp only [evRun, List.foldlM_cons, e] at e1 ⊢; exact e1, ?_, e3⟩
        rw [e2]
        simp only [lastJac]
        cases lastJac l <;> rfl
      | hess x b f lam c =>
        obtain ⟨u, e⟩ := hess_step h a x b f lam c h2
        obtain ⟨a', e1, e2, e3⟩ := ih
          { a with user := u, H := ⟨hr.map (· - 1), hc.map (· - 1), hv x f lam⟩, hessDone := true } h1
          (fun _ => ⟨rfl, rfl⟩)
        refine ⟨a', by simp only [evRun, List.foldlM_cons, e] at e1 ⊢; exact e1, e2, ?_⟩
        rw [e3]
        simp only [lastHess]
        cases lastHess l <;> rfl
  exact key ops ⟨u, false, false, J0, H0⟩ (by simp) (by simp)

/-- Two variables, one constraint: `c(x) = x1*x2`, `f(x) = x1^2`. -/
def demoProb : FProb ℤ := ⟨2, 1, 0, 2, 2, [0, 0], [9, 9], [1], [5], [1, 1]⟩

def demoF : FUser Unit ℤ := fun s q =>
  match q with
  | .jac t _ _ x _ _ => (s, if t = 0 then { rows := [1, 1], cols := [1, 2] }
      else { vals := [x.getD 1 0, x.getD 0 0] })
  | .hess t _ _ f _ _ lam _ _ => (s, if t = 0 then { rows := [1, 1], cols := [1, 2] }
      else { vals := [2 * f, lam.getD 0 0] })
  | _ => (s, {})

example : Program demoProb demoF [1, 1] [1, 2] [1, 1] [1, 2] (fun x => [x.getD 1 0, x.getD 0 0])
    (fun _ f lam => [2 * f, lam.getD 0 0]) :=
  ⟨rfl, rfl, rfl, rfl, fun _ _ _ _ _ => ⟨rfl, rfl⟩, fun _ _ _ _ _ => rfl, fun _ _ _ _ _ _ _ _ => ⟨rfl, rfl⟩,
    fun _ _ _ _ _ _ _ _ => rfl⟩

example : (evRun demoProb demoF ⟨(), false, false, ⟨[], [], []⟩, ⟨[], [], []⟩⟩
    [.jac [3, 4] true, .hess [3, 4] false 1 [7] true, .jac [5, 6] true]).map (fun a => (a.J, a.H)) =
    some (⟨[0, 0], [0, 1], [6, 5]⟩, ⟨[0, 0], [0, 1], [2, 7]⟩) := by decide

/-- The data given at creation are those the solver gets, independently of what the Fortran program does with its
arrays later, and sizes that differ from those given at creation abort. -/
theorem C66_fortran_data (D : FProb K) (F : FUser σ K) (s : σ) (n m : ℤ) :
    wrapper D F s .probSizes = some (s, 0, { ints := [D.n, D.m] }) ∧
      wrapper D F s .blocksInfo = some (s, 0, { ints := [D.n, D.nnzEq, D.nnzIneq, D.nnzHess] }) ∧
      (∀ r, wrapper D F s (.startPoint n) = some r → n = D.n ∧ r = (s, 0, { vals := D.x0 })) ∧
      (∀ r, wrapper D F s (.varsInfo n) = some r → n = D.n ∧ r = (s, 0, { vals := D.xlow, upp := D.xupp })) ∧
      (∀ r, wrapper D F s (.consInfo m) = some r → m = D.m ∧ r = (s, 0, { vals := D.clow, upp := D.cupp })) := by
  refine ⟨rfl, rfl, fun r h => ?_, fun r h => ?_, fun r h => ?_⟩ <;>
    (simp only [wrapper] at h; split at h
     · rename_i hn; exact ⟨hn, (Option.some.inj h).symm⟩
     · exact absurd h (by simp))

example : (wrapper demoProb demoF () (.varsInfo 2)).map (fun r => (r.2.2.vals, r.2.2.upp)) =
    some ([0, 0], [9, 9]) := by decide

/-! ## Memory -/

/-- The problems that exist and those that were deleted; `none` if a problem is deleted that does not exist. -/
def problems : List MemOp → Option (List ℕ × List ℕ)
  | ops => ops.foldlM (fun a o =>
      match o with
      | .create k => some (k :: a.1, a.2)
      | .delete k => if k ∈ a.1 then some (a.1.erase k, k :: a.2) else none) ([], [])

theorem free_perm (k : ℕ) (l : List Block) (h r : List (ℕ × Block))
    (hp : h.Perm (l.map (fun b => (k, b)) ++ r)) :
    ∃ h', l.foldlM (fun h b => if (k, b) ∈ h then some (h.erase (k, b)) else none) h = some h' ∧ h'.Perm r := by
  induction l generalizing h with
  | nil => exact ⟨h, rfl, hp⟩
  | cons b l ih =>
    have hm : (k, b) ∈ h := hp.symm.subset (by simp)
    have hp' : (h.erase (k, b)).Perm (l.map (fun b => (k, b)) ++ r) := by
      have := hp.erase (k, b)
      simpa using this
    obtain ⟨h', e1, e2⟩ := ih _ hp'
    refine ⟨h', ?_, e2⟩
    simp only [List.foldlM_cons, hm, if_true]
    exact e1

/-- The blocks of the existing problems, and one array of each deleted one. -/
def expected (a : List ℕ × List ℕ) : List (ℕ × Block) :=
  a.1.flatMap (fun k => allocated.map fun b => (k, b)) ++ a.2.map fun k => (k, Block.x0)

/-- A Fortran program that deletes only problems it has created and not deleted never frees anything twice; and the
memory it holds is that of the existing problems **plus one array of every problem ever deleted**. -/
theorem C66_fortran_memory_partial (ops : List MemOp) (a : List ℕ × List ℕ) (h : problems ops = some a) :
    ∃ m, memRun [] ops = some m ∧ m.Perm (expected a) := by
  have key : ∀ (ops : List MemOp) (a0 a : List ℕ × List ℕ) (m0 : List (ℕ × Block)), m0.Perm (expected a0) →
      ops.foldlM (fun a o =>
        match o with
        | .create k => some (k :: a.1, a.2)
        | .delete k => if k ∈ a.1 then some (a.1.erase k, k :: a.2) else none) a0 = some a →
      ∃ m, memRun m0 ops = some m ∧ m.Perm (expected a) := by
    intro ops
    induction ops with
    | nil =>
      intro a0 a m0 hp h
      obtain rfl := Option.some.inj h
      exact ⟨m0, rfl, hp⟩
    | cons o l ih =>
      intro a0 a m0 hp h
      rw [List.foldlM_cons] at h
      cases o with
      | create k =>
        refine (ih (k :: a0.1, a0.2) a (allocated.map (fun b => (k, b)) ++ m0) ?_ h).imp fun m hm => ⟨?_, hm.2⟩
        · simp only [expected, List.flatMap_cons, List.append_assoc]
          exact hp.append_left _
        · simp only [memRun, List.foldlM_cons, memStep]
          exact hm.1
      | delete k =>
        by_cases hk : k ∈ a0.1
        · simp only [hk, if_true, Option.bind_eq_bind, Option.bind_some] at h
          have h1 : (expected a0).Perm (allocated.map (fun b => (k, b)) ++ expected (a0.1.erase k, a0.2)) := by
            simp only [expected, ← List.append_assoc]
            refine List.Perm.append_right _ ?_
            have := (List.perm_cons_erase hk).flatMap_right (fun k => allocated.map fun b => (k, b))
            simpa using this
          have h2 : (allocated.map (fun b => (k, b))).Perm (freed.map (fun b => (k, b)) ++ [(k, Block.x0)]) := by
            have : allocated.Perm (freed ++ [Block.x0]) := by decide
            simpa using this.map (fun b => (k, b))
          have h3 : m0.Perm (freed.map (fun b => (k, b)) ++ ((k, Block.x0) :: expected (a0.1.erase k, a0.2))) := by
            refine hp.trans (h1.trans ?_)
            have := h2.append_right (expected (a0.1.erase k, a0.2))
            simpa using this
          obtain ⟨m1, e1, e2⟩ := free_perm k freed m0 _ h3
          refine (ih (a0.1.erase k, k :: a0.2) a m1 (e2.trans ?_) h).imp fun m hm => ⟨?_, hm.2⟩
          · simp only [expected, List.map_cons]
            exact List.perm_middle.symm
          · simp only [memRun, List.foldlM_cons, memStep, e1]
            exact hm.1
        · simp only [hk, if_false] at h
          exact absurd h (by simp)
  exact key ops _ a [] (List.Perm.refl _) h

/-- So memory is lost: after `N` problems were created, solved and deleted, `N` arrays remain and nothing else. -/
theorem C66_fortran_leak_false (N : ℕ) :
    ∃ m, memRun [] ((List.range N).flatMap fun k => [.create k, .delete k]) = some m ∧ m.length = N := by
  have key : ∀ N, problems ((List.range N).flatMap fun k => [.create k, .delete k]) =
      some ([], (List.range N).reverse) := by
    intro N
    induction N with
    | zero => rfl
    | succ N ih =>
      unfold problems at ih ⊢
      rw [List.range_succ, List.flatMap_append, List.foldlM_append, ih]
      simp
  obtain ⟨m, h1, h2⟩ := C66_fortran_memory_partial _ _ (key N)
  refine ⟨m, h1, ?_⟩
  rw [h2.length_eq]
  simp [expected]

example : problems [.create 3, .create 5, .delete 3, .create 3] = some ([3, 5], [3]) := by decide

/-! ## Options -/

section Opts

open Options Select

/-- The options a sparse problem is solved with through the C interface, in every build, when there is no options
file: solver MA57 in every iteration, and without it every run stops at a failed assertion, whatever other solvers
the build has. -/
theorem C66_sparse_solver (L : Libs) (P : Parser) (cons : ℕ) (theta kappa : ℚ) (ev : ℕ → Ev) :
    ∃ m o, nlpHistory L.opt P [] sparseOptions = some m ∧ readOpts m = some o ∧
      (∀ t s, runTo L .sparse cons o theta kappa ev (t + 1) = some s → s.form = .xdycyd ∧ s.solver = some .ma57) ∧
      (L.coinhsl = false → ∀ t, runTo L .sparse cons o theta kappa ev (t + 1) = none) := by
  obtain ⟨m, h1, _⟩ := C26_never_aborts L.opt P [] sparseOptions
  obtain ⟨o, h2, _⟩ := opts_of_history h1
  refine ⟨m, o, h1, h2, ?_⟩
  have h4 : (nlpHistory L.opt P [] sparseOptions).map (fun m => (getStr m "KKTLinsys", getStr m "linsol_mode")) =
      some (some "xdycyd", some "stable") := by
    rw [no_file _ P demoP]
    obtain ⟨cu, hi, ei, ra, gp, ax, gk⟩ := L.opt
    revert cu hi ei ra gp ax gk
    decide +kernel
  rw [h1] at h4
  simp only [Option.map_some, Option.some.injEq, Prod.mk.injEq] at h4
  obtain ⟨k1, k2⟩ := h4
  simp only [readOpts, k1, k2, Option.bind_eq_bind, Option.bind_some] at h2
  obtain ⟨l, _, h2⟩ := Option.bind_eq_some_iff.1 h2
  obtain ⟨c, _, h2⟩ := Option.bind_eq_some_iff.1 h2
  obtain ⟨a, _, h2⟩ := Option.bind_eq_some_iff.1 h2
  obtain rfl := Option.some.inj h2
  refine ⟨fun t s h => ?_, fun hco t => ?_⟩
  · have := C65_stable_xdycyd L .sparse (Or.inl rfl) cons _ rfl (Or.inl rfl) theta kappa ev t s h
    exact ⟨this.1, this.2.1⟩
  · rw [Nat.add_comm]
    apply run_abort
    unfold runTo runTo start
    cases hs : L.sparse with
    | false => simp [decideForm, hs]
    | true =>
      simp only [decideForm, hs]
      have key : ∀ a' : Option Acceptor,
          (a'.bind fun a' => some (St.mk .xdycyd none a' true 10 100000 theta kappa)).bind
            (Select.iteration L .sparse cons ⟨"xdycyd", l, c, a, "stable"⟩ 0 (ev 0)) = none := by
        intro a'
        cases a' with
        | none => rfl
        | some a' =>
          simp only [Option.bind_some, Select.iteration, beginIter]
          simp [chk, pass, toSafer, linsys, xdycydLinsys, hco]
      exact key _

/-- With MA57 such runs exist. -/
example : ∃ m o s, nlpHistory hostLibs.opt demoP [] sparseOptions = some m ∧ readOpts m = some o ∧
    runTo hostLibs .sparse 3 o 1 1 calm 1 = some s ∧ s.solver = some .ma57 := by
  obtain ⟨m, o, h1, h2, h3, _⟩ := C66_sparse_solver hostLibs demoP 3 1 1 calm
  have h4 : ((nlpHistory hostLibs.opt demoP [] sparseOptions).bind readOpts).bind
      (fun o => (runTo hostLibs .sparse 3 o 1 1 calm 1).map St.solver) = some (some .ma57) := by decide +kernel
  rw [h1] at h4
  simp only [Option.bind_some, h2, Option.map_eq_some_iff] at h4
  obtain ⟨s, h5, h6⟩ := h4
  exact ⟨m, o, s, h1, h2, h5, h6⟩

/-- The other options set at creation hold during the run, in every build, when there is no options file: for mixed
dense-sparse problems. -/
theorem C66_mds_options (b : Build) (P : Parser) :
    (nlpHistory b P [] mdsOptions).map (fun m => (getStr m "duals_update_type", getStr m "duals_init",
      getStr m "Hessian")) = some (some "linear", some "zero", some "analytical_exact") ∧
    (nlpHistory b P [] mdsOptions).map (fun m => (getStr m "KKTLinsys", getInt m "verbosity_level",
      getNum m "mu0")) = some (some "xdycyd", some 3, some (some (1 / 10))) := by
  have h : ((nlpHistory b P [] mdsOptions).map (fun m => 
      (getStr m "duals_update_type", getStr m "duals_init", getStr m "Hessian") ==
        (some "linear", some "zero", some "analytical_exact") &&
      (getStr m "KKTLinsys", getInt m "verbosity_level", getNum m "mu0") ==
        (some "xdycyd", some 3, some (some (1 / 10))))) = some true := by
    rw [no_file _ P demoP]
    obtain ⟨cu, hi, ei, ra, gp, ax, gk⟩ := b
    revert cu hi ei ra gp ax gk
    decide +kernel
  obtain ⟨m, h1, h2⟩ := Option.map_eq_some_iff.1 h
  simp only [Bool.and_eq_true, beq_iff_eq] at h2
  simp only [h1, Option.map_some, h2.1, h2.2, and_self]

/-- For dense problems. -/
theorem C66_dense_options (b : Build) (P : Parser) :
    (nlpHistory b P [] denseOptions).map (fun m => (getStr m "duals_update_type", getStr m "duals_init",
      getStr m "Hessian")) = some (some "linear", some "zero", some "quasinewton_approx") ∧
    (nlpHistory b P [] denseOptions).map (fun m => (getStr m "KKTLinsys", getStr m "fixed_var",
      getStr m "compute_mode")) = some (some "xdycyd", some "relax", some "cpu") := by
  have h : ((nlpHistory b P [] denseOptions).map (fun m => 
      (getStr m "duals_update_type", getStr m "duals_init", getStr m "Hessian") ==
        (some "linear", some "zero", some "quasinewton_approx") &&
      (getStr m "KKTLinsys", getStr m "fixed_var", getStr m "compute_mode") ==
        (some "xdycyd", some "relax", some "cpu"))) = some true := by
    rw [no_file _ P demoP]
    obtain ⟨cu, hi, ei, ra, gp, ax, gk⟩ := b
    revert cu hi ei ra gp ax gk
    decide +kernel
  obtain ⟨m, h1, h2⟩ := Option.map_eq_some_iff.1 h
  simp only [Bool.and_eq_true, beq_iff_eq] at h2
  simp only [h1, Option.map_some, h2.1, h2.2, and_self]

end Opts

end Hiop.CApi
