import Verif.Options.Model

/-!
# What the user may rely on about options

Nothing here refers to how the setters or the consistency pass are implemented.
-/

namespace Hiop.Options

/-- A value is within its registered range.  `nan` says whether a numeric option may hold a value that is
not a number. -/
def Valid (nan : Bool) : Opt → Prop
  | .num (some v) lb ub => lb ≤ v ∧ v ≤ ub
  | .num none _ _ => nan = true
  | .int v lb ub => lb ≤ v ∧ v ≤ ub
  | .str v range => range = [] ∨ v ∈ range

/-- Same type and same registered range. -/
def SameReg : Opt → Opt → Prop
  | .num _ lb ub, .num _ lb' ub' => lb = lb' ∧ ub = ub'
  | .int _ lb ub, .int _ lb' ub' => lb = lb' ∧ ub = ub'
  | .str _ r, .str _ r' => r = r'
  | _, _ => False

/-- The store holds exactly the registered options, each with its registered type and range and a value
satisfying `V`. -/
def WF (V : String → Opt → Prop) (t : List (String × Opt)) (m : Store) : Prop :=
  ∀ n, match t.lookup n with
    | none => m n = none
    | some o => ∃ e, m n = some e ∧ SameReg o e.o ∧ V n e.o

/-- The store holds exactly the registered options, each with its registered type and range and a value
within that range. -/
abbrev InRange (nan : Bool) (t : List (String × Opt)) (m : Store) : Prop := WF (fun _ => Valid nan) t m

/-- No call passes a value that is not a number. -/
def Call.Proper (nan : Bool) : Call → Prop
  | .num _ v _ => v = none → nan = true
  | _ => True

/-- A tolerance set by the user is not below `tolerance`. -/
def TolOk (m : Store) (k : String) : Prop :=
  userDefined m k = true → ∀ a c, getNum m k = some (some a) → getNum m "tolerance" = some (some c) → c ≤ a

/-- The relations between options that the consistency pass enforces, in terms of what the getters and
`is_user_defined` return. -/
structure Consistent (b : Build) (m : Store) : Prop where
  acc : TolOk m "acceptable_tolerance"
  dual : TolOk m "dual_tol"
  cons : TolOk m "cons_tol"
  comp : TolOk m "comp_tol"
  hessKkt : getStr m "Hessian" = some "quasinewton_approx" → userDefined m "Hessian" = true →
    getStr m "KKTLinsys" = some "auto" ∨ getStr m "KKTLinsys" = some "condensed"
  hessDuals : getStr m "Hessian" = some "analytical_exact" →
    getStr m "duals_update_type" = some "linear"
  kktFull : getStr m "KKTLinsys" = some "full" → ∀ s, getStr m "linear_solver_sparse" = some s →
    s = "resolve" ∨ s = "pardiso" ∨ s = "strumpack" ∨ s = "auto"
  kktCond : getStr m "KKTLinsys" = some "condensed" → ∀ s, getStr m "linear_solver_sparse" = some s →
    s = "cusolver-chol" ∨ s = "auto"
  cuda : b.cuda = false → getStr m "linear_solver_sparse" ≠ some "resolve" ∧
    getStr m "linear_solver_sparse" ≠ some "cusolver-chol"
  ginkgoCuda : b.ginkgo = true → b.cuda = false → getStr m "linear_solver_sparse" = some "ginkgo" →
    getStr m "ginkgo_exec" ≠ some "cuda"
  ginkgoHip : b.ginkgo = true → b.hip = false → getStr m "linear_solver_sparse" = some "ginkgo" →
    getStr m "ginkgo_exec" ≠ some "hip"
  ordering : b.cuda = true → b.eigen = false →
    getStr m "linear_solver_sparse_ordering" ≠ some "symamd-eigen"
  rajaMode : b.raja = false → getStr m "compute_mode" ≠ some "gpu"
  rajaMem : b.raja = false → getStr m "mem_space" = some "default"
  memSpace : getStr m "callback_mem_space" = getStr m "mem_space" ∨
    (getStr m "callback_mem_space" ≠ some "default" ∧
      (userDefined m "callback_mem_space" = true → getStr m "mem_space" = some "device") ∧
      (getStr m "mem_space" = some "device" → getStr m "callback_mem_space" ≠ some "um"))
  gpu : b.gpu = false → getStr m "compute_mode" = some "cpu"
  fixedVar : getStr m "compute_mode" = some "gpu" → getStr m "fixed_var" ≠ some "remove"
  inertia : getStr m "KKTLinsys" = some "full" ∨ getStr m "linear_solver_sparse" = some "strumpack" ∨
    getStr m "linear_solver_sparse" = some "resolve" → getStr m "fact_acceptor" ≠ some "inertia_correction"
  moving : getNum m "moving_lim_rel" = some (some 0) ∨
    (getNum m "moving_lim_abs" = some (some 0) ∧ getNum m "moving_lim_rel" ≠ some none)
  axom : b.axom = false → ∀ k ∈ chkOpts, userDefined m k = false

/-- The options whose value a consistency rule may change. -/
def ruleKeys : List String :=
  ["acceptable_tolerance", "dual_tol", "cons_tol", "comp_tol", "KKTLinsys", "duals_update_type",
    "linear_solver_sparse", "ginkgo_exec", "linear_solver_sparse_ordering", "compute_mode", "mem_space",
    "callback_mem_space", "fixed_var", "fact_acceptor", "moving_lim_rel"]

/-- The four error tolerances that a user may set besides `tolerance`. -/
def tolKeys : List String := ["acceptable_tolerance", "dual_tol", "cons_tol", "comp_tol"]

/-- Whether the options file mentioned an option. -/
def inFile (m : Store) (k : String) : Bool :=
  match m k with
  | some e => e.inFile
  | none => false

end Hiop.Options
