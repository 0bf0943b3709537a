import Verif.Select.Model
import Verif.Options.Props
import Verif.Perturb.Model
import Mathlib.Tactic.NormNum

/-!
# C65: which linear system, solver and acceptor a run uses
-/

namespace Hiop.Select

open Hiop.Options

/-! ## Specification -/

/-- The documented values of the options. -/
structure InDoc (o : Opts) : Prop where
  kkt : o.kkt ∈ ["auto", "xycyd", "xdycyd", "full", "condensed", "normaleqn"]
  lin : o.lin ∈ ["auto", "ma57", "pardiso", "strumpack", "resolve", "ginkgo", "cusolver-chol"]
  mode : o.mode ∈ ["auto", "cpu", "hybrid", "gpu"]
  acc : o.acc ∈ ["inertia_correction", "inertia_free"]
  linsol : o.linsol ∈ ["stable", "speculative", "forcequick"]

/-- Whether HiOp was built with what the solver needs. -/
def available (L : Libs) : Solver → Bool
  | .ma57 | .csrMa57 => L.coinhsl
  | .pardiso | .luPardiso => L.pardiso
  | .strumpack | .luStrumpack => L.strumpack
  | .ginkgo => L.opt.ginkgo
  | .resolve => L.resolve
  | .cuChol => L.opt.cuda
  | .lapack => true
  | .magmaBuKa | .magmaNopiv => L.magma

/-- The value of `linear_solver_sparse` that names the solver. -/
def nameOf : Solver → String
  | .ma57 | .csrMa57 => "ma57"
  | .pardiso | .luPardiso => "pardiso"
  | .strumpack | .luStrumpack => "strumpack"
  | .ginkgo => "ginkgo"
  | .resolve => "resolve"
  | .cuChol => "cusolver-chol"
  | _ => ""

/-- The order in which solvers are tried according to the comment above the registration of
`linear_solver_sparse` (src/Utils/hiopOptions.cpp:895-909). For `full` it names `resolve` first, which has no
non-symmetric solver class. -/
def docOrder (f : Form) (mode : String) : List Solver :=
  match f with
  | .xycyd | .xdycyd =>
    if mode = "cpu" then [.ma57, .pardiso, .strumpack, .ginkgo] else [.resolve, .strumpack, .ma57, .pardiso]
  | .full => [.luStrumpack, .luPardiso]
  | .condensed | .normaleqn => if mode = "cpu" then [.csrMa57] else [.cuChol]
  | .denseXYcYd | .denseXDYcYd | .mdsXYcYd => [.lapack]

/-- The documented choice: the solver named if it is there, otherwise the first available one. -/
def documented (L : Libs) (f : Form) (o : Opts) : Option Solver :=
  match (docOrder f o.mode).find? (fun s => available L s && nameOf s == o.lin) with
  | some s => some s
  | none => (docOrder f o.mode).find? (available L)

/-- The option asks for no particular solver or for one that is there. -/
def Reasonable (L : Libs) (f : Form) (o : Opts) : Prop :=
  o.lin = "auto" ∨ ∃ s ∈ docOrder f o.mode, available L s = true ∧ nameOf s = o.lin

/-- The solvers that HiOp says do not support inertia correction. -/
def noInertia : Solver → Bool
  | .strumpack | .resolve | .luPardiso | .luStrumpack => true
  | _ => false

/-! ## Options of a history -/

/-- Every history of option settings leaves readable documented values. -/
theorem opts_of_history {b : Build} {P : Parser} {file : List String} {calls : List Call} {m : Store}
    (h : nlpHistory b P file calls = some m) : ∃ o, readOpts m = some o ∧ InDoc o := by
  obtain ⟨hw, _⟩ := history_facts h
  obtain ⟨k, h1, h1'⟩ := getStr_of_lookup hw (k := "KKTLinsys") rfl
  obtain ⟨l, h2, h2'⟩ := getStr_of_lookup hw (k := "linear_solver_sparse") rfl
  obtain ⟨c, h3, h3'⟩ := getStr_of_lookup hw (k := "compute_mode") rfl
  obtain ⟨a, h4, h4'⟩ := getStr_of_lookup hw (k := "fact_acceptor") rfl
  obtain ⟨s, h5, h5'⟩ := getStr_of_lookup hw (k := "linsol_mode") rfl
  refine ⟨⟨k, l, c, a, s⟩, by simp [readOpts, h1, h2, h3, h4, h5], ?_⟩
  exact ⟨h1'.resolve_left (by simp), h2'.resolve_left (by simp), h3'.resolve_left (by simp),
    h4'.resolve_left (by simp), h5'.resolve_left (by simp)⟩

/-! ## The solver of a formulation -/

/-- Only the flags of the sparse solvers matter for the two augmented systems. -/
def coreL (c pa st re gk : Bool) : Libs := ⟨⟨false, false, false, false, false, false, gk⟩, true, c, pa, st, re, false⟩

theorem linsys_core (L : Libs) (o : Opts) (ic safe : Bool) :
    linsys L o ic safe .xycyd none =
      linsys (coreL L.coinhsl L.pardiso L.strumpack L.resolve L.opt.ginkgo) o ic safe .xycyd none ∧
    linsys L o ic safe .xdycyd none =
      linsys (coreL L.coinhsl L.pardiso L.strumpack L.resolve L.opt.ginkgo) o ic safe .xdycyd none :=
  ⟨rfl, rfl⟩

theorem documented_core (L : Libs) (o : Opts) (hd : InDoc o) :
    documented L .xycyd o = documented (coreL L.coinhsl L.pardiso L.strumpack L.resolve L.opt.ginkgo) .xycyd o ∧
    documented L .xdycyd o =
      documented (coreL L.coinhsl L.pardiso L.strumpack L.resolve L.opt.ginkgo) .xdycyd o := by
  obtain ⟨kkt, lin, mode, acc, linsol⟩ := o
  have hmo := hd.mode
  simp only [List.mem_cons, List.not_mem_nil, or_false] at hmo
  rcases hmo with rfl | rfl | rfl | rfl <;> exact ⟨rfl, rfl⟩

theorem reasonable_core (L : Libs) (o : Opts) (hd : InDoc o) :
    (Reasonable L .xycyd o ↔
      Reasonable (coreL L.coinhsl L.pardiso L.strumpack L.resolve L.opt.ginkgo) .xycyd o) ∧
    (Reasonable L .xdycyd o ↔
      Reasonable (coreL L.coinhsl L.pardiso L.strumpack L.resolve L.opt.ginkgo) .xdycyd o) := by
  obtain ⟨kkt, lin, mode, acc, linsol⟩ := o
  have hmo := hd.mode
  simp only [List.mem_cons, List.not_mem_nil, or_false] at hmo
  rcases hmo with rfl | rfl | rfl | rfl <;>
    simp [Reasonable, docOrder, available, coreL]

/-- All combinations of flags and values for the (x, yc, yd) system. -/
theorem core_xycyd : ∀ mode ∈ ["auto", "cpu", "hybrid"],
    ∀ lin ∈ ["auto", "ma57", "pardiso", "strumpack", "resolve", "ginkgo", "cusolver-chol"],
    ∀ c pa st re gk ic : Bool,
      (lin = "auto" ∨ ∃ s ∈ docOrder .xycyd mode, available (coreL c pa st re gk) s = true ∧ nameOf s = lin) →
      linsys (coreL c pa st re gk) ⟨"", lin, mode, "", ""⟩ ic false .xycyd none =
        (documented (coreL c pa st re gk) .xycyd ⟨"", lin, mode, "", ""⟩).filter
          (fun s => !(noInertia s && ic)) := by
  decide +kernel

/-- All combinations of flags and values for the (x, d, yc, yd) system on the host. -/
theorem core_xdycyd_cpu :
    ∀ lin ∈ ["auto", "ma57", "pardiso", "strumpack", "resolve", "ginkgo", "cusolver-chol"],
    ∀ c pa st re gk ic : Bool,
      (lin = "auto" ∨ ∃ s ∈ docOrder .xdycyd "cpu", available (coreL c pa st re gk) s = true ∧ nameOf s = lin) →
      linsys (coreL c pa st re gk) ⟨"", lin, "cpu", "", ""⟩ ic false .xdycyd none =
        (documented (coreL c pa st re gk) .xdycyd ⟨"", lin, "cpu", "", ""⟩).filter
          (fun s => !(noInertia s && ic)) := by
  decide +kernel

/-- All combinations of flags and values for the (x, d, yc, yd) system in hybrid mode. -/
theorem core_xdycyd_hybrid : ∀ mode ∈ ["auto", "hybrid"],
    ∀ lin ∈ ["ma57", "strumpack", "resolve", "ginkgo", "cusolver-chol"],
    ∀ c pa st re gk ic : Bool,
      (lin = "auto" ∨ ∃ s ∈ docOrder .xdycyd mode, available (coreL c pa st re gk) s = true ∧ nameOf s = lin) →
      linsys (coreL c pa st re gk) ⟨"", lin, mode, "", ""⟩ ic false .xdycyd none =
        (documented (coreL c pa st re gk) .xdycyd ⟨"", lin, mode, "", ""⟩).filter
          (fun s => !(noInertia s && ic)) := by
  decide +kernel

theorem filter_iff (a : Option Solver) (ic : Bool) (s : Solver) :
    a.filter (fun s => !(noInertia s && ic)) = some s ↔ a = some s ∧ (noInertia s = true → ic = false) := by
  cases a with
  | none => simp
  | some t =>
    simp only [Option.filter_some, Option.some.injEq]
    constructor
    · intro h
      split at h
      · rename_i hp
        obtain rfl := Option.some.inj h
        exact ⟨rfl, fun hn => by simpa [hn] using hp⟩
      · exact absurd h (by simp)
    · rintro ⟨rfl, h⟩
      rw [if_pos]
      cases hn : noInertia t
      · simp
      · simp [h hn]

/-- The (x, yc, yd) system outside safe mode, on the host or in hybrid mode: the documented solver, and an
assertion failure exactly when there is none or when it does not support the acceptor. -/
theorem C65_solver_xycyd (L : Libs) (o : Opts) (hd : InDoc o) (ic : Bool) (hm : o.mode ≠ "gpu")
    (hr : Reasonable L .xycyd o) (s : Solver) :
    linsys L o ic false .xycyd none = some s ↔
      documented L .xycyd o = some s ∧ (noInertia s = true → ic = false) := by
  rw [(linsys_core L o ic false).1, (documented_core L o hd).1, ← filter_iff]
  rw [(reasonable_core L o hd).1] at hr
  have := core_xycyd o.mode (by have := hd.mode; simp at this ⊢; tauto) o.lin hd.lin L.coinhsl L.pardiso
    L.strumpack L.resolve L.opt.ginkgo ic hr
  exact Eq.congr_left this

/-- The (x, d, yc, yd) system outside safe mode likewise, on the host, and in hybrid mode when the option
names a solver other than PARDISO. Missing: hybrid mode with `auto` or `pardiso`
(`C65_xdycyd_hybrid_auto_false`, `C65_xdycyd_hybrid_pardiso_false`). -/
theorem C65_solver_xdycyd_partial (L : Libs) (o : Opts) (hd : InDoc o) (ic : Bool)
    (hm : o.mode = "cpu" ∨ (o.mode ≠ "gpu" ∧ o.lin ≠ "auto" ∧ o.lin ≠ "pardiso"))
    (hr : Reasonable L .xdycyd o) (s : Solver) :
    linsys L o ic false .xdycyd none = some s ↔
      documented L .xdycyd o = some s ∧ (noInertia s = true → ic = false) := by
  rw [(linsys_core L o ic false).2, (documented_core L o hd).2, ← filter_iff]
  rw [(reasonable_core L o hd).2] at hr
  obtain ⟨kkt, lin, mode, acc, linsol⟩ := o
  simp only at hm
  rcases hm with rfl | ⟨h1, h2, h3⟩
  · exact Eq.congr_left (core_xdycyd_cpu lin hd.lin L.coinhsl L.pardiso L.strumpack L.resolve L.opt.ginkgo ic hr)
  · by_cases hc : mode = "cpu"
    · subst hc
      exact Eq.congr_left (core_xdycyd_cpu lin hd.lin L.coinhsl L.pardiso L.strumpack L.resolve L.opt.ginkgo ic hr)
    · refine Eq.congr_left (core_xdycyd_hybrid mode ?_ lin ?_ L.coinhsl L.pardiso L.strumpack L.resolve
        L.opt.ginkgo ic hr)
      · have := hd.mode
        simp only [List.mem_cons, List.not_mem_nil, or_false] at this ⊢
        tauto
      · have := hd.lin
        simp only [List.mem_cons, List.not_mem_nil, or_false] at this ⊢
        tauto

/-- A build with every sparse solver, used in the examples. -/
def allLibs : Libs := ⟨⟨true, false, true, true, true, false, true⟩, true, true, true, true, true, true⟩

/-- Options used in the examples. -/
def exOpts (kkt lin mode acc linsol : String) : Opts := ⟨kkt, lin, mode, acc, linsol⟩

example : InDoc (exOpts "xycyd" "pardiso" "hybrid" "inertia_correction" "speculative") ∧
    Reasonable allLibs .xycyd (exOpts "xycyd" "pardiso" "hybrid" "inertia_correction" "speculative") ∧
    linsys allLibs (exOpts "xycyd" "pardiso" "hybrid" "inertia_correction" "speculative") true false .xycyd none =
      some .pardiso := by
  refine ⟨⟨by decide, by decide, by decide, by decide, by decide⟩, Or.inr ⟨.pardiso, by decide, by decide, by decide⟩, by decide +kernel⟩

example : documented allLibs .xdycyd (exOpts "xdycyd" "auto" "cpu" "inertia_correction" "speculative") = some .ma57 ∧
    documented { allLibs with coinhsl := false } .xdycyd
      (exOpts "xdycyd" "auto" "cpu" "inertia_correction" "speculative") = some .pardiso := by decide +kernel

/-- A solver that is named but was not built is not replaced by the next one in the order: assertion. -/
theorem C65_named_missing_false (L : Libs) (o : Opts) (hd : InDoc o) (ic : Bool) (f : Form)
    (hf : f = .xycyd ∨ f = .xdycyd) (ha : o.lin ≠ "auto")
    (hn : ∀ s, nameOf s = o.lin → available L s = false) : linsys L o ic false f none = none := by
  obtain ⟨kkt, lin, mode, acc, linsol⟩ := o
  have hl := hd.lin
  have hmo := hd.mode
  simp only [List.mem_cons, List.not_mem_nil, or_false] at hl hmo ha hn
  rcases hl with rfl | rfl | rfl | rfl | rfl | rfl | rfl
  · exact absurd rfl ha
  · have h : L.coinhsl = false := hn .ma57 rfl
    rcases hf with rfl | rfl <;> rcases hmo with rfl | rfl | rfl | rfl <;>
      simp [linsys, xycydLinsys, xdycydLinsys, chk, block, want, h]
  · have h : L.pardiso = false := hn .pardiso rfl
    rcases hf with rfl | rfl <;> rcases hmo with rfl | rfl | rfl | rfl <;>
      simp [linsys, xycydLinsys, xdycydLinsys, chk, block, want, h]
  · have h : L.strumpack = false := hn .strumpack rfl
    rcases hf with rfl | rfl <;> rcases hmo with rfl | rfl | rfl | rfl <;>
      simp [linsys, xycydLinsys, xdycydLinsys, chk, block, want, h]
  · have h : L.resolve = false := hn .resolve rfl
    rcases hf with rfl | rfl <;> rcases hmo with rfl | rfl | rfl | rfl <;>
      simp [linsys, xycydLinsys, xdycydLinsys, chk, block, want, h]
  · have h : L.opt.ginkgo = false := hn .ginkgo rfl
    rcases hf with rfl | rfl <;> rcases hmo with rfl | rfl | rfl | rfl <;>
      simp [linsys, xycydLinsys, xdycydLinsys, chk, block, want, h]
  · rcases hf with rfl | rfl <;> rcases hmo with rfl | rfl | rfl | rfl <;>
      simp [linsys, xycydLinsys, xdycydLinsys, chk, block, want]

/-- For instance MA57 is named, only PARDISO is there: the documented choice is PARDISO. -/
example : let L : Libs := { allLibs with coinhsl := false }
    let o := exOpts "xycyd" "ma57" "cpu" "inertia_correction" "speculative"
    documented L .xycyd o = some .pardiso ∧ linsys L o true false .xycyd none = none := by decide +kernel

/-- In hybrid mode the (x, d, yc, yd) system never gets a solver under `auto`, whatever was built: after a
solver has been created, null is returned (src/Optimization/hiopKKTLinSysSparse.cpp:726-733). -/
theorem C65_xdycyd_hybrid_auto_false (L : Libs) (o : Opts) (ic : Bool) (hm : o.mode = "hybrid" ∨ o.mode = "auto")
    (hl : o.lin = "auto") : linsys L o ic false .xdycyd none = none := by
  obtain ⟨kkt, lin, mode, acc, linsol⟩ := o
  simp only at hm hl
  subst hl
  rcases hm with rfl | rfl <;> cases h1 : L.resolve <;> cases h2 : L.strumpack <;> cases ic <;>
    simp [linsys, xdycydLinsys, chk, block, h1, h2]

/-- In hybrid mode the (x, d, yc, yd) system with PARDISO requested uses MA57. -/
theorem C65_xdycyd_hybrid_pardiso_false (L : Libs) (o : Opts) (ic : Bool)
    (hm : o.mode = "hybrid" ∨ o.mode = "auto") (hl : o.lin = "pardiso") (hp : L.pardiso = true) :
    linsys L o ic false .xdycyd none = some .ma57 := by
  obtain ⟨kkt, lin, mode, acc, linsol⟩ := o
  simp only at hm hl
  subst hl
  rcases hm with rfl | rfl <;> simp [linsys, xdycydLinsys, chk, block, hp]

/-- The full system does not read `linear_solver_sparse`: PARDISO whenever it was built, even when
STRUMPACK is named or first in the documented order. -/
theorem C65_full_ignores_option_false (L : Libs) (o : Opts) (hp : L.pardiso = true) (s : Solver)
    (h : linsys L o ic safe .full none = some s) : s = .luPardiso := by
  unfold linsys at h
  simp only [fullLinsys, hp] at h
  cases safe <;> cases ic <;> simp [chk] at h
  split at h <;> simp at h
  exact h.symm

example : let o := exOpts "full" "strumpack" "cpu" "inertia_free" "speculative"
    linsys allLibs o false false .full none = some .luPardiso ∧ documented allLibs .full o = some .luStrumpack := by
  decide +kernel

/-- Only two flags matter for the positive definite systems. -/
def cholL (c cu : Bool) : Libs := ⟨⟨cu, false, false, false, false, false, false⟩, true, c, false, false, false, false⟩

/-- All combinations of flags and values for the positive definite systems. -/
theorem core_chol : ∀ mode ∈ ["auto", "cpu", "hybrid", "gpu"],
    ∀ lin ∈ ["auto", "ma57", "pardiso", "strumpack", "resolve", "ginkgo", "cusolver-chol"],
    ∀ c cu : Bool, ∀ f ∈ [Form.condensed, .normaleqn],
      linsys (cholL c cu) ⟨"", lin, mode, "", ""⟩ true true f none =
        (documented (cholL c cu) f ⟨"", lin, mode, "", ""⟩).filter
          (fun s => lin == "auto" || lin == nameOf s) := by
  decide +kernel

/-- The two positive definite systems: the documented solver, and an assertion failure exactly when it was not
built or another one is named. -/
theorem C65_solver_chol (L : Libs) (o : Opts) (ic safe : Bool) (hd : InDoc o) (f : Form)
    (hf : f = .condensed ∨ f = .normaleqn) (s : Solver) :
    linsys L o ic safe f none = some s ↔ documented L f o = some s ∧ (o.lin = "auto" ∨ o.lin = nameOf s) := by
  obtain ⟨kkt, lin, mode, acc, linsol⟩ := o
  have h1 : linsys L ⟨kkt, lin, mode, acc, linsol⟩ ic safe f none =
      linsys (cholL L.coinhsl L.opt.cuda) ⟨"", lin, mode, "", ""⟩ true true f none := by
    rcases hf with rfl | rfl <;> rfl
  have h2 : documented L f ⟨kkt, lin, mode, acc, linsol⟩ =
      documented (cholL L.coinhsl L.opt.cuda) f ⟨"", lin, mode, "", ""⟩ := by
    have hmo := hd.mode
    simp only [List.mem_cons, List.not_mem_nil, or_false] at hmo
    rcases hf with rfl | rfl <;> rcases hmo with rfl | rfl | rfl | rfl <;> rfl
  rw [h1, h2, core_chol mode hd.mode lin hd.lin _ _ f (by simpa using hf)]
  cases documented (cholL L.coinhsl L.opt.cuda) f ⟨"", lin, mode, "", ""⟩ with
  | none => simp
  | some t =>
    simp only [Option.filter_some, Option.some.injEq, Bool.or_eq_true, beq_iff_eq]
    constructor
    · intro h
      split at h
      · rename_i hp
        obtain rfl := Option.some.inj h
        exact ⟨rfl, hp⟩
      · exact absurd h (by simp)
    · rintro ⟨rfl, h⟩
      rw [if_pos h]

/-- Without an options file the parser plays no role. -/
theorem no_file (b : Build) (P Q : Parser) (calls : List Call) : nlpHistory b P [] calls = nlpHistory b Q [] calls :=
  rfl

/-- The rules for options do not prevent the failure: naming PARDISO with the normal equations is accepted by
the options and fails here, in every build for the host. -/
theorem C65_normaleqn_named_false (P : Parser) (b : Build) (hg : b.gpu = false) (hc : b.cuda = false)
    (hr : b.raja = false) :
    ∃ calls m o, nlpHistory b P [] calls = some m ∧ readOpts m = some o ∧ o.lin = "pardiso" ∧
      ∀ (L : Libs) (ic safe : Bool) (cons : ℕ), L.opt = b → L.sparse = true → 0 < cons →
        decideForm L .sparse cons o = some .normaleqn ∧ linsys L o ic safe .normaleqn none = none := by
  obtain ⟨cu, hi, ei, ra, gp, ax, gk⟩ := b
  simp only at hg hc hr
  subst hg hc hr
  let calls : List Call := [.str "Hessian" "analytical_exact" false, .str "KKTLinsys" "normaleqn" false,
    .str "linear_solver_sparse" "pardiso" false]
  obtain ⟨m, h1, _⟩ := C26_never_aborts ⟨false, hi, ei, false, false, ax, gk⟩ P [] calls
  obtain ⟨o, h2, h3⟩ := opts_of_history h1
  have h4 : (nlpHistory ⟨false, hi, ei, false, false, ax, gk⟩ P [] calls).map
      (fun m => (getStr m "KKTLinsys", getStr m "linear_solver_sparse", getStr m "compute_mode")) =
      some (some "normaleqn", some "pardiso", some "cpu") := by
    rw [no_file _ P demoP]
    cases hi <;> cases ei <;> cases ax <;> cases gk <;> decide +kernel
  rw [h1] at h4
  simp only [Option.map_some, Option.some.injEq, Prod.mk.injEq] at h4
  obtain ⟨k1, k2, k3⟩ := h4
  simp only [readOpts, k1, k2, k3, Option.bind_eq_bind, Option.bind_some] at h2
  refine ⟨calls, m, o, h1, ?_, ?_⟩
  · simp only [readOpts, k1, k2, k3, Option.bind_eq_bind, Option.bind_some]; exact h2
  obtain ⟨a, _, h2⟩ := Option.bind_eq_some_iff.1 h2
  obtain ⟨l, _, h2⟩ := Option.bind_eq_some_iff.1 h2
  obtain rfl := Option.some.inj h2
  refine ⟨rfl, fun L ic safe cons _ hs hc => ⟨?_, ?_⟩⟩
  · simp [decideForm, hs, hc]
  · simp [linsys, cholLinsys, chk]

end Hiop.Select
