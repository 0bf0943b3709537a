import Verif.Options.Lemmas
import Mathlib.Tactic.NormNum
import Mathlib.Tactic.Tauto

/-!
# The consistency pass of the NLP options

`Consistent` lists what the pass guarantees.  The pass never fails on a well-formed store, establishes
`Consistent`, and is the identity on consistent stores.
-/

namespace Hiop.Options

variable {nan : Bool} {b : Build} {m : Store}

/-- A conditional internal assignment. -/
theorem cond_eff {t : List (String × Opt)} (h : InRange nan t m) (c : Bool) {k d v : String} {r : List String}
    (hl : t.lookup k = some (.str d r)) (hv : v ∈ r) (hlow : lower v = v) :
    ∃ m', (if c then setValStr m k v else some m) = some m' ∧ Eff (fun _ => Valid nan) t k m m' ∧
      getStr m' k = (if c then some v else getStr m k) := by
  cases c with
  | false => exact ⟨m, by simp, Eff.refl h k, by simp⟩
  | true =>
    obtain ⟨m', h1, h2, h3⟩ := setValStr_eff (adm_valid nan) h hl hlow hv
    exact ⟨m', by simpa using h1, h2, by simpa using h3⟩

theorem assignIf_eff {t : List (String × Opt)} (h : InRange nan t m) (c : Bool) {k d v : String}
    {r : List String} (hl : t.lookup k = some (.str d r)) (hv : v ∈ r) (hlow : lower v = v) :
    ∃ m', assignIf c m k v = some m' ∧ Eff (fun _ => Valid nan) t k m m' ∧ getStr m' k = (if c then some v else getStr m k) :=
  cond_eff h c hl hv hlow

theorem hessKkt_eq {h k : String} (h1 : getStr m "Hessian" = some h) (h2 : getStr m "KKTLinsys" = some k) :
    hessKktRule m = if (h == "quasinewton_approx" && ((k == "xycyd" || k == "xdycyd" || k == "full" ||
      k == "normaleqn") && userDefined m "Hessian")) then setValStr m "KKTLinsys" "auto" else some m := by
  unfold hessKktRule
  simp only [h1, h2, Option.bind_eq_bind, Option.bind_some]
  cases h == "quasinewton_approx" <;> simp

theorem hessDuals_eq {h d : String} (h1 : getStr m "Hessian" = some h)
    (h2 : getStr m "duals_update_type" = some d) :
    hessDualsRule m = if (h == "analytical_exact" && d != "linear") then
      setValStr m "duals_update_type" "linear" else some m := by
  unfold hessDualsRule
  simp only [h1, h2, Option.bind_eq_bind, Option.bind_some]
  cases h == "analytical_exact" <;> simp

theorem kktSolver_eq {s k : String} (h1 : getStr m "KKTLinsys" = some k) :
    kktSolverRule s m = if ((k == "full" && (s != "resolve" && s != "pardiso" && s != "strumpack" &&
      s != "auto")) || (k == "condensed" && (s != "cusolver-chol" && s != "auto"))) then
      setValStr m "linear_solver_sparse" "auto" else some m := by
  unfold kktSolverRule
  simp only [h1, Option.bind_eq_bind, Option.bind_some]
  by_cases hf : k = "full"
  · subst hf; simp
  · have hf' : (k == "full") = false := by simpa using hf
    rw [hf']
    cases k == "condensed" <;> simp

theorem inertia_eq {k s f : String} (h1 : getStr m "KKTLinsys" = some k)
    (h2 : getStr m "linear_solver_sparse" = some s) (h3 : getStr m "fact_acceptor" = some f) :
    inertiaRule m = if ((k == "full" || (s == "strumpack" || s == "resolve")) && f == "inertia_correction") then
      setValStr m "fact_acceptor" "inertia_free" else some m := by
  unfold inertiaRule
  simp only [h1, h2, h3, Option.bind_eq_bind, Option.bind_some]
  cases k == "full" <;> cases (s == "strumpack" || s == "resolve") <;> simp

theorem fixedVar_eq {c f : String} (h1 : getStr m "compute_mode" = some c) (h2 : getStr m "fixed_var" = some f) :
    fixedVarRule m = if (c == "gpu" && f == "remove") then setValStr m "fixed_var" "relax" else some m := by
  unfold fixedVarRule
  simp only [h1, h2, Option.bind_eq_bind, Option.bind_some]
  cases c == "gpu" <;> simp

theorem memSpace_eq {s c : String} (h1 : getStr m "mem_space" = some s)
    (h2 : getStr m "callback_mem_space" = some c) :
    memSpaceRule m = if (s != c && (((userDefined m "callback_mem_space" && s != "device") ||
      (c == "um" && s == "device")) || c == "default")) then setValStr m "callback_mem_space" s
      else some m := by
  unfold memSpaceRule
  simp only [h1, h2, Option.bind_eq_bind, Option.bind_some]
  cases s != c <;>
    cases ((userDefined m "callback_mem_space" && s != "device") || (c == "um" && s == "device")) <;> simp

/-! ### Every rule, on a well-formed store -/

/-- Shorthand: the rule succeeds and changes at most the value of `k`, which satisfies `p`. -/
def Does (nan : Bool) (b : Build) (k : String) (m : Store) (r : Option Store) (p : Store → Prop) : Prop :=
  ∃ m', r = some m' ∧ Eff (fun _ => Valid nan) (nlpTable b) k m m' ∧ p m'

theorem hessKkt_does (h : InRange nan (nlpTable b) m) :
    Does nan b "KKTLinsys" m (hessKktRule m) fun m' =>
      getStr m' "Hessian" = some "quasinewton_approx" → userDefined m' "Hessian" = true →
        getStr m' "KKTLinsys" = some "auto" ∨ getStr m' "KKTLinsys" = some "condensed" := by
  obtain ⟨hs, h1, _⟩ := getStr_of_lookup h (k := "Hessian") rfl
  obtain ⟨k, h2, h2'⟩ := getStr_of_lookup h (k := "KKTLinsys") rfl
  rw [hessKkt_eq h1 h2]
  obtain ⟨m', e1, e2, e3⟩ := cond_eff h (hs == "quasinewton_approx" && ((k == "xycyd" || k == "xdycyd" ||
    k == "full" || k == "normaleqn") && userDefined m "Hessian")) (k := "KKTLinsys") (v := "auto") rfl
    (by simp) (by decide)
  refine ⟨m', e1, e2, fun hq hu => ?_⟩
  rw [e2.str _ (by decide), h1] at hq
  rw [e2.user] at hu
  obtain rfl := Option.some.inj hq
  rw [e3, h2]
  simp only [reduceCtorEq, List.mem_cons, List.not_mem_nil, or_false, false_or] at h2'
  rcases h2' with rfl | rfl | rfl | rfl | rfl | rfl <;> simp [hu]

theorem hessDuals_does (h : InRange nan (nlpTable b) m) :
    Does nan b "duals_update_type" m (hessDualsRule m) fun m' =>
      getStr m' "Hessian" = some "analytical_exact" → getStr m' "duals_update_type" = some "linear" := by
  obtain ⟨hs, h1, _⟩ := getStr_of_lookup h (k := "Hessian") rfl
  obtain ⟨d, h2, h2'⟩ := getStr_of_lookup h (k := "duals_update_type") rfl
  rw [hessDuals_eq h1 h2]
  obtain ⟨m', e1, e2, e3⟩ := cond_eff h (hs == "analytical_exact" && d != "linear")
    (k := "duals_update_type") (v := "linear") rfl (by simp) (by decide)
  refine ⟨m', e1, e2, fun hq => ?_⟩
  rw [e2.str _ (by decide), h1] at hq
  obtain rfl := Option.some.inj hq
  rw [e3, h2]
  by_cases hd : d = "linear" <;> simp [hd]

theorem kktSolver_does (h : InRange nan (nlpTable b) m) {s : String}
    (hs : getStr m "linear_solver_sparse" = some s) :
    Does nan b "linear_solver_sparse" m (kktSolverRule s m) fun m' =>
      (getStr m' "linear_solver_sparse" = some s ∨ getStr m' "linear_solver_sparse" = some "auto") ∧
      (getStr m' "KKTLinsys" = some "full" → ∀ s, getStr m' "linear_solver_sparse" = some s →
        s = "resolve" ∨ s = "pardiso" ∨ s = "strumpack" ∨ s = "auto") ∧
      (getStr m' "KKTLinsys" = some "condensed" → ∀ s, getStr m' "linear_solver_sparse" = some s →
        s = "cusolver-chol" ∨ s = "auto") := by
  obtain ⟨k, h1, _⟩ := getStr_of_lookup h (k := "KKTLinsys") rfl
  rw [kktSolver_eq h1]
  obtain ⟨m', e1, e2, e3⟩ := cond_eff h ((k == "full" && (s != "resolve" && s != "pardiso" &&
      s != "strumpack" && s != "auto")) || (k == "condensed" && (s != "cusolver-chol" && s != "auto")))
    (k := "linear_solver_sparse") (v := "auto") rfl (by simp) (by decide)
  rw [hs] at e3
  refine ⟨m', e1, e2, ?_, ?_, ?_⟩
  · rw [e3]; split <;> simp
  · intro hk s' hs'
    rw [e2.str _ (by decide), h1] at hk
    obtain rfl := Option.some.inj hk
    rw [e3] at hs'
    split at hs'
    · exact Or.inr (Or.inr (Or.inr (Option.some.inj hs').symm))
    · rename_i hc
      obtain rfl := Option.some.inj hs'
      simp at hc
      tauto
  · intro hk s' hs'
    rw [e2.str _ (by decide), h1] at hk
    obtain rfl := Option.some.inj hk
    rw [e3] at hs'
    split at hs'
    · exact Or.inr (Option.some.inj hs').symm
    · rename_i hc
      obtain rfl := Option.some.inj hs'
      simp at hc
      tauto

theorem cudaSolver_does (h : InRange nan (nlpTable b) m) (s : String)
    (hs : getStr m "linear_solver_sparse" = some s ∨ getStr m "linear_solver_sparse" = some "auto") :
    Does nan b "linear_solver_sparse" m (cudaSolverRule b s m) fun m' =>
      (getStr m' "linear_solver_sparse" = getStr m "linear_solver_sparse" ∨
        getStr m' "linear_solver_sparse" = some "auto") ∧
      (b.cuda = false → getStr m' "linear_solver_sparse" ≠ some "resolve" ∧
        getStr m' "linear_solver_sparse" ≠ some "cusolver-chol") := by
  unfold cudaSolverRule
  obtain ⟨m', e1, e2, e3⟩ := cond_eff h (!b.cuda && (s == "resolve" || s == "cusolver-chol"))
    (k := "linear_solver_sparse") (v := "auto") rfl (by simp) (by decide)
  refine ⟨m', e1, e2, ?_, ?_⟩
  · rw [e3]; split <;> simp
  · intro hb
    rw [e3]
    split
    · simp
    · rename_i hc
      simp [hb] at hc
      rcases hs with hs | hs <;> simp [hs, hc]

theorem ginkgo_does (h : InRange nan (nlpTable b) m) (s : String)
    (hs : getStr m "linear_solver_sparse" = some s ∨ getStr m "linear_solver_sparse" = some "auto") :
    Does nan b "ginkgo_exec" m (ginkgoRule b s m) fun m' =>
      (b.ginkgo = true → b.cuda = false → getStr m' "linear_solver_sparse" = some "ginkgo" →
        getStr m' "ginkgo_exec" ≠ some "cuda") ∧
      (b.ginkgo = true → b.hip = false → getStr m' "linear_solver_sparse" = some "ginkgo" →
        getStr m' "ginkgo_exec" ≠ some "hip") := by
  unfold ginkgoRule
  cases hg : b.ginkgo with
  | false => exact ⟨m, by simp, Eff.refl h _, by simp, by simp⟩
  | true =>
    obtain ⟨e, h1, _⟩ := getStr_of_lookup h (k := "ginkgo_exec") rfl
    simp only [if_true, h1, Option.bind_eq_bind, Option.bind_some]
    obtain ⟨m1, e1, e2, e3⟩ := assignIf_eff h (!b.cuda && s == "ginkgo" && e == "cuda")
      (k := "ginkgo_exec") (v := "reference") rfl (by simp) (by decide)
    obtain ⟨m2, f1, f2, f3⟩ := assignIf_eff e2.wf (!b.hip && s == "ginkgo" && e == "hip")
      (k := "ginkgo_exec") (v := "reference") rfl (by simp) (by decide)
    rw [e1]
    simp only [Option.bind_some]
    have hsol : getStr m2 "linear_solver_sparse" = some "ginkgo" → s = "ginkgo" := by
      intro hq
      rw [f2.str _ (by decide), e2.str _ (by decide)] at hq
      rcases hs with hs | hs
      · rw [hs] at hq; exact Option.some.inj hq
      · simp [hs] at hq
    refine ⟨m2, f1, e2.trans f2, fun _ hc hq => ?_, fun _ hc hq => ?_⟩
    · rw [f3, e3, h1]
      simp only [hsol hq, hc]
      by_cases h1 : e = "cuda" <;> by_cases h2 : e = "hip" <;> simp_all
      split <;> simp
    · rw [f3, e3, h1]
      simp only [hsol hq, hc]
      by_cases h1 : e = "cuda" <;> by_cases h2 : e = "hip" <;> simp_all <;> split <;> simp

theorem ordering_does (h : InRange nan (nlpTable b) m) :
    Does nan b "linear_solver_sparse_ordering" m (orderingRule b m) fun m' =>
      b.cuda = true → b.eigen = false → getStr m' "linear_solver_sparse_ordering" ≠ some "symamd-eigen" := by
  unfold orderingRule
  cases hc : (b.cuda && !b.eigen) with
  | false =>
    refine ⟨m, by simp, Eff.refl h _, fun h1 h2 => ?_⟩
    simp [h1, h2] at hc
  | true =>
    obtain ⟨o, h1, _⟩ := getStr_of_lookup h (k := "linear_solver_sparse_ordering") rfl
    simp only [if_true, h1, Option.bind_eq_bind, Option.bind_some]
    obtain ⟨m1, e1, e2, e3⟩ := cond_eff h (o == "symamd-eigen")
      (k := "linear_solver_sparse_ordering") (v := "symamd-cuda") rfl (by simp [orderings]) (by decide)
    refine ⟨m1, e1, e2, fun _ _ => ?_⟩
    rw [e3, h1]
    by_cases ho : o = "symamd-eigen" <;> simp [ho]

theorem raja_does (h : InRange nan (nlpTable b) m) :
    ∃ m1 m2, rajaRule b m = some m2 ∧ Eff (fun _ => Valid nan) (nlpTable b) "compute_mode" m m1 ∧
      Eff (fun _ => Valid nan) (nlpTable b) "mem_space" m1 m2 ∧
      (b.raja = false → getStr m2 "compute_mode" ≠ some "gpu") ∧
      (b.raja = false → getStr m2 "mem_space" = some "default") := by
  unfold rajaRule
  cases hb : b.raja with
  | true => exact ⟨m, m, by simp, Eff.refl h _, Eff.refl h _, by simp, by simp⟩
  | false =>
    obtain ⟨c, h1, _⟩ := getStr_of_lookup h (k := "compute_mode") rfl
    simp only [Bool.not_false, if_true, h1, Option.bind_eq_bind, Option.bind_some]
    obtain ⟨m1, e1, e2, e3⟩ := assignIf_eff h (c == "gpu")
      (k := "compute_mode") (v := "hybrid") rfl (by simp) (by decide)
    obtain ⟨s, h2, h2'⟩ := getStr_of_lookup e2.wf (k := "mem_space") rfl
    obtain ⟨m2, f1, f2, f3⟩ := assignIf_eff e2.wf (s != "default")
      (k := "mem_space") (v := "default") rfl (by simp [memSpaces, hb]) (by decide)
    rw [e1]
    simp only [Option.bind_some, h2]
    refine ⟨m1, m2, f1, e2, f2, fun _ => ?_, fun _ => ?_⟩
    · rw [f2.str _ (by decide), e3, h1]
      by_cases hc : c = "gpu" <;> simp [hc]
    · rw [f3, h2]
      by_cases hc : s = "default" <;> simp [hc]

theorem lower_memSpaces {s : String} (hs : s ∈ memSpaces b) : lower s = s := by
  unfold memSpaces at hs
  split at hs
  · simp only [List.mem_cons, List.not_mem_nil, or_false] at hs
    rcases hs with rfl | rfl | rfl | rfl <;> decide
  · simp only [List.mem_cons, List.not_mem_nil, or_false] at hs
    subst hs; decide

theorem memSpaces_ne_nil : memSpaces b ≠ [] := by unfold memSpaces; split <;> simp

theorem memSpace_does (h : InRange nan (nlpTable b) m) :
    Does nan b "callback_mem_space" m (memSpaceRule m) fun m' =>
      getStr m' "callback_mem_space" = getStr m' "mem_space" ∨
        (getStr m' "callback_mem_space" ≠ some "default" ∧
          (userDefined m' "callback_mem_space" = true → getStr m' "mem_space" = some "device") ∧
          (getStr m' "mem_space" = some "device" → getStr m' "callback_mem_space" ≠ some "um")) := by
  obtain ⟨s, h1, h1'⟩ := getStr_of_lookup h (k := "mem_space") rfl
  obtain ⟨c, h2, _⟩ := getStr_of_lookup h (k := "callback_mem_space") rfl
  have hs := h1'.resolve_left memSpaces_ne_nil
  rw [memSpace_eq h1 h2]
  obtain ⟨m', e1, e2, e3⟩ := cond_eff h (s != c && (((userDefined m "callback_mem_space" && s != "device") ||
      (c == "um" && s == "device")) || c == "default")) (k := "callback_mem_space") (v := s) rfl hs
      (lower_memSpaces hs)
  refine ⟨m', e1, e2, ?_⟩
  beta_reduce
  rw [e3, e2.str _ (by decide), e2.user, h1, h2]
  split
  · exact Or.inl rfl
  · rename_i hc
    by_cases hsc : s = c
    · left; rw [hsc]
    · right
      simp [hsc] at hc
      simp only [ne_eq, Option.some.injEq]
      tauto

theorem gpu_does (h : InRange nan (nlpTable b) m) :
    Does nan b "compute_mode" m (gpuRule b m) fun m' =>
      (b.gpu = false → getStr m' "compute_mode" = some "cpu") ∧
      (getStr m' "compute_mode" = getStr m "compute_mode" ∨ getStr m' "compute_mode" = some "cpu") := by
  unfold gpuRule
  cases hb : b.gpu with
  | true => exact ⟨m, by simp, Eff.refl h _, by simp, Or.inl rfl⟩
  | false =>
    obtain ⟨c, h1, h1'⟩ := getStr_of_lookup h (k := "compute_mode") rfl
    simp only [Bool.not_false, if_true, h1, Option.bind_eq_bind, Option.bind_some]
    obtain ⟨m1, e1, e2, e3⟩ := assignIf_eff h (c == "hybrid")
      (k := "compute_mode") (v := "cpu") rfl (by simp) (by decide)
    rw [e1]
    simp only [Option.bind_some]
    obtain ⟨c2, h2, _⟩ := getStr_of_lookup e2.wf (k := "compute_mode") rfl
    obtain ⟨m2, f1, f2, f3⟩ := assignIf_eff e2.wf (c2 == "gpu")
      (k := "compute_mode") (v := "cpu") rfl (by simp) (by decide)
    simp only [Option.bind_some, h2, f1]
    obtain ⟨c3, h3, _⟩ := getStr_of_lookup f2.wf (k := "compute_mode") rfl
    obtain ⟨m3, g1, g2, g3⟩ := assignIf_eff f2.wf (c3 == "auto")
      (k := "compute_mode") (v := "cpu") rfl (by simp) (by decide)
    simp only [Option.bind_some, h3, g1]
    have hcpu : getStr m3 "compute_mode" = some "cpu" := by
      rw [h2, h1] at e3
      rw [h3, h2] at f3
      rw [h3] at g3
      rw [g3]
      simp only [reduceCtorEq, List.mem_cons, List.not_mem_nil, or_false, false_or] at h1'
      rcases h1' with rfl | rfl | rfl | rfl <;> simp at e3 <;> subst e3 <;> simp at f3 <;> subst f3 <;> simp
    exact ⟨m3, rfl, (e2.trans f2).trans g2, fun _ => hcpu, Or.inr hcpu⟩

theorem fixedVar_does (h : InRange nan (nlpTable b) m) :
    Does nan b "fixed_var" m (fixedVarRule m) fun m' =>
      getStr m' "compute_mode" = some "gpu" → getStr m' "fixed_var" ≠ some "remove" := by
  obtain ⟨c, h1, _⟩ := getStr_of_lookup h (k := "compute_mode") rfl
  obtain ⟨f, h2, _⟩ := getStr_of_lookup h (k := "fixed_var") rfl
  rw [fixedVar_eq h1 h2]
  obtain ⟨m', e1, e2, e3⟩ := cond_eff h (c == "gpu" && f == "remove") (k := "fixed_var") (v := "relax") rfl
    (by simp) (by decide)
  refine ⟨m', e1, e2, fun hq => ?_⟩
  rw [e2.str _ (by decide), h1] at hq
  obtain rfl := Option.some.inj hq
  rw [e3, h2]
  by_cases hf : f = "remove" <;> simp [hf]

theorem inertia_does (h : InRange nan (nlpTable b) m) :
    Does nan b "fact_acceptor" m (inertiaRule m) fun m' =>
      getStr m' "KKTLinsys" = some "full" ∨ getStr m' "linear_solver_sparse" = some "strumpack" ∨
        getStr m' "linear_solver_sparse" = some "resolve" →
      getStr m' "fact_acceptor" ≠ some "inertia_correction" := by
  obtain ⟨k, h1, _⟩ := getStr_of_lookup h (k := "KKTLinsys") rfl
  obtain ⟨s, h2, _⟩ := getStr_of_lookup h (k := "linear_solver_sparse") rfl
  obtain ⟨f, h3, _⟩ := getStr_of_lookup h (k := "fact_acceptor") rfl
  rw [inertia_eq h1 h2 h3]
  obtain ⟨m', e1, e2, e3⟩ := cond_eff h ((k == "full" || (s == "strumpack" || s == "resolve")) &&
    f == "inertia_correction") (k := "fact_acceptor") (v := "inertia_free") rfl (by simp) (by decide)
  refine ⟨m', e1, e2, fun hq => ?_⟩
  rw [e2.str _ (by decide), e2.str _ (by decide), h1, h2] at hq
  rw [e3, h3]
  simp only [Option.some.injEq] at hq
  by_cases hf : f = "inertia_correction"
  · have : (k == "full" || (s == "strumpack" || s == "resolve")) = true := by simpa using hq
    simp [this, hf]
  · simp [hf]

theorem moving_does (h : InRange nan (nlpTable b) m) :
    Does nan b "moving_lim_rel" m (movingRule m) fun m' =>
      getNum m' "moving_lim_rel" = some (some 0) ∨
        (getNum m' "moving_lim_abs" = some (some 0) ∧ getNum m' "moving_lim_rel" ≠ some none) := by
  obtain ⟨r, h1, _⟩ := getNum_of_lookup (adm_valid nan) h (k := "moving_lim_rel") rfl
  obtain ⟨a, h2, _⟩ := getNum_of_lookup (adm_valid nan) h (k := "moving_lim_abs") rfl
  unfold movingRule
  simp only [h1, h2, Option.bind_eq_bind, Option.bind_some]
  cases hp : prodNonzero r a with
  | true =>
    obtain ⟨m', e1, e2, e3⟩ := setValNum_eff (adm_valid nan) h (k := "moving_lim_rel") (v := 0) rfl (by norm_num) (by norm_num)
    exact ⟨m', by simpa using e1, e2, Or.inl e3⟩
  | false =>
    refine ⟨m, by simp, Eff.refl h _, ?_⟩
    cases r with
    | none => simp [prodNonzero] at hp
    | some r =>
    cases a with
    | none => simp [prodNonzero] at hp
    | some a =>
      simp only [prodNonzero, ne_eq, decide_not, Bool.not_eq_false', decide_eq_true_eq, mul_eq_zero] at hp
      rcases hp with rfl | rfl
      · exact Or.inl h1
      · exact Or.inr ⟨h2, by simp [h1]⟩

theorem axom_userDefined (m : Store) (k : String) :
    userDefined (Function.update m k ((m k).map fun e => { e with inFile := false, atRun := false })) k
      = false := by
  unfold userDefined
  cases m k <;> simp

/-- Clearing the flags of one option. -/
def clear (m : Store) (k : String) : Store :=
  Function.update m k ((m k).map fun e => { e with inFile := false, atRun := false })

theorem clear_o (m : Store) (k k' : String) : (clear m k k').map Entry.o = (m k').map Entry.o := by
  unfold clear
  by_cases h : k' = k
  · subst h; simp only [Function.update_self]; cases m k' <;> rfl
  · rw [Function.update_of_ne h]

theorem clear_ne (m : Store) {k k' : String} (h : k' ≠ k) : clear m k k' = m k' :=
  Function.update_of_ne h _ _

theorem clear_user (m : Store) (k k' : String) :
    userDefined (clear m k) k' = if k' = k then false else userDefined m k' := by
  by_cases h : k' = k
  · subst h; simp only [if_true]; exact axom_userDefined m k'
  · unfold userDefined; rw [clear_ne m h, if_neg h]

theorem getStr_congr {m m' : Store} {k : String} (h : (m' k).map Entry.o = (m k).map Entry.o) :
    getStr m' k = getStr m k := by
  unfold getStr
  rcases h1 : m k with _ | ⟨o, _, _⟩ <;> rcases h2 : m' k with _ | ⟨o', _, _⟩ <;> simp [h1, h2] at h ⊢
  rw [h]; cases o <;> rfl

theorem getNum_congr {m m' : Store} {k : String} (h : (m' k).map Entry.o = (m k).map Entry.o) :
    getNum m' k = getNum m k := by
  unfold getNum
  rcases h1 : m k with _ | ⟨o, _, _⟩ <;> rcases h2 : m' k with _ | ⟨o', _, _⟩ <;> simp [h1, h2] at h ⊢
  rw [h]; cases o <;> rfl

theorem WF.congr {V : String → Opt → Prop} {t : List (String × Opt)} {m' : Store} (h : WF V t m)
    (ho : ∀ k, (m' k).map Entry.o = (m k).map Entry.o) : WF V t m' := by
  intro n
  have hn := h n
  have hon := ho n
  cases hl : t.lookup n with
  | none =>
    rw [hl] at hn
    simp only at hn ⊢
    rw [hn] at hon
    simpa using hon
  | some o =>
    rw [hl] at hn
    obtain ⟨e, h1, h2, h3⟩ := hn
    rw [h1] at hon
    simp only [Option.map_some, Option.map_eq_some_iff] at hon
    obtain ⟨e', h4, h5⟩ := hon
    exact ⟨e', h4, h5 ▸ h2, h5 ▸ h3⟩

theorem axom_does (m : Store) :
    ∃ m', axomRule b m = some m' ∧ (∀ k, (m' k).map Entry.o = (m k).map Entry.o) ∧
      (∀ k, k ∉ chkOpts → m' k = m k) ∧ (∀ k, k ∉ chkOpts → userDefined m' k = userDefined m k) ∧
      (b.axom = false → ∀ k ∈ chkOpts, userDefined m' k = false) := by
  unfold axomRule
  split
  · have hf : chkOpts.foldl (fun m k => Function.update m k ((m k).map fun e => { e with
        inFile := false, atRun := false })) m =
        clear (clear (clear (clear m "checkpoint_save") "checkpoint_save_every_N_iter") "checkpoint_file")
          "checkpoint_load_on_start" := rfl
    rw [hf]
    refine ⟨_, rfl, fun k => ?_, fun k hk => ?_, fun k hk => ?_, fun _ k hk => ?_⟩
    · simp only [clear_o]
    · simp only [chkOpts, List.mem_cons, List.not_mem_nil, or_false, not_or] at hk
      rw [clear_ne _ hk.2.2.2, clear_ne _ hk.2.2.1, clear_ne _ hk.2.1, clear_ne _ hk.1]
    · simp only [chkOpts, List.mem_cons, List.not_mem_nil, or_false, not_or] at hk
      simp only [clear_user, hk, if_false]
    · simp only [chkOpts, List.mem_cons, List.not_mem_nil, or_false] at hk
      rcases hk with rfl | rfl | rfl | rfl <;> simp [clear_user]
  · rename_i hc
    refine ⟨m, rfl, fun _ => rfl, fun _ _ => rfl, fun _ _ => rfl, fun hb k hk => ?_⟩
    simp only [hb, Bool.not_false, Bool.true_and, Bool.not_eq_true, List.any_eq_false] at hc
    exact hc k hk

/-! ### The whole pass -/

/-- The pass never fails on a well-formed store; its result is well formed and consistent; and it changes
no value outside `ruleKeys`, and no flag outside the checkpointing options. -/
theorem ensureNlp_ok (h0 : InRange nan (nlpTable b) m) :
    ∃ m', ensureNlp b m = some m' ∧ InRange nan (nlpTable b) m' ∧ Consistent b m' ∧
      (∀ k, k ∉ ruleKeys → (m' k).map Entry.o = (m k).map Entry.o) ∧
      (∀ k, k ∉ chkOpts → userDefined m' k = userDefined m k) ∧
      (∀ k, k ∉ chkOpts ∨ b.axom = true → inFile m' k = inFile m k) ∧
      (∀ k ∈ tolKeys, getNum m' k = getNum m k ∨ (getNum m' k = getNum m "tolerance" ∧
        ∃ a c, getNum m k = some (some a) ∧ getNum m "tolerance" = some (some c) ∧ a < c)) := by
  obtain ⟨m1, r1, e1, v1, p1⟩ := tolRule_eff (adm_valid nan) h0 (k := "acceptable_tolerance") (by decide) rfl rfl
    (by norm_num) (by norm_num)
  obtain ⟨m2, r2, e2, v2, p2⟩ := tolRule_eff (adm_valid nan) e1.wf (k := "dual_tol") (by decide) rfl rfl
    (by norm_num) (by norm_num)
  obtain ⟨m3, r3, e3, v3, p3⟩ := tolRule_eff (adm_valid nan) e2.wf (k := "cons_tol") (by decide) rfl rfl
    (by norm_num) (by norm_num)
  obtain ⟨m4, r4, e4, v4, p4⟩ := tolRule_eff (adm_valid nan) e3.wf (k := "comp_tol") (by decide) rfl rfl
    (by norm_num) (by norm_num)
  obtain ⟨m5, r5, e5, p5⟩ := hessKkt_does e4.wf
  obtain ⟨m6, r6, e6, p6⟩ := hessDuals_does e5.wf
  obtain ⟨s, hs, _⟩ := getStr_of_lookup e6.wf (k := "linear_solver_sparse") rfl
  obtain ⟨m7, r7, e7, p7, p7f, p7c⟩ := kktSolver_does e6.wf hs
  obtain ⟨m8, r8, e8, p8, p8c⟩ := cudaSolver_does e7.wf s p7
  have hs8 : getStr m8 "linear_solver_sparse" = some s ∨ getStr m8 "linear_solver_sparse" = some "auto" := by
    rcases p8 with q | q
    · rw [q]; exact p7
    · exact Or.inr q
  obtain ⟨m9, r9, e9, p9c, p9h⟩ := ginkgo_does e8.wf s hs8
  obtain ⟨m10, r10, e10, p10⟩ := ordering_does e9.wf
  obtain ⟨n11, m11, r11, f11, e11, p11g, p11m⟩ := raja_does e10.wf
  obtain ⟨m12, r12, e12, p12⟩ := memSpace_does e11.wf
  obtain ⟨m13, r13, e13, p13, p13'⟩ := gpu_does e12.wf
  obtain ⟨m14, r14, e14, p14⟩ := fixedVar_does e13.wf
  obtain ⟨m15, r15, e15, p15⟩ := inertia_does e14.wf
  obtain ⟨m16, r16, e16, p16⟩ := moving_does e15.wf
  obtain ⟨m17, r17, o17, k17, u17, p17⟩ := axom_does (b := b) m16
  have S : ∀ k, getStr m17 k = getStr m16 k := fun k => getStr_congr (o17 k)
  have N : ∀ k, getNum m17 k = getNum m16 k := fun k => getNum_congr (o17 k)
  have hrun : ensureNlp b m = some m17 := by
    simp only [ensureNlp, r1, r2, r3, r4, r5, r6, hs, r7, r8, r9, r10, r11, r12, r13, r14, r15, r16,
      Option.bind_eq_bind, Option.bind_some, r17]
  refine ⟨m17, hrun, e16.wf.congr o17, ?_, ?_, ?_, ?_, ?_⟩
  · have U : ∀ k, k ∉ chkOpts → userDefined m17 k = userDefined m k := by
      intro k hk
      rw [u17 k hk, e16.user, e15.user, e14.user, e13.user, e12.user, e11.user, f11.user, e10.user, e9.user,
        e8.user, e7.user, e6.user, e5.user, e4.user, e3.user, e2.user, e1.user]
    constructor
    · intro hu
      rw [U _ (by decide)] at hu
      have := p1 hu
      simpa [TolOk, N, e16.num, e15.num, e14.num, e13.num, e12.num, e11.num, f11.num, e10.num, e9.num,
        e8.num, e7.num, e6.num, e5.num, e4.num, e3.num, e2.num] using this
    · intro hu
      rw [U _ (by decide), ← e1.user] at hu
      have := p2 hu
      simpa [TolOk, N, e16.num, e15.num, e14.num, e13.num, e12.num, e11.num, f11.num, e10.num, e9.num,
        e8.num, e7.num, e6.num, e5.num, e4.num, e3.num] using this
    · intro hu
      rw [U _ (by decide), ← e1.user, ← e2.user] at hu
      have := p3 hu
      simpa [TolOk, N, e16.num, e15.num, e14.num, e13.num, e12.num, e11.num, f11.num, e10.num, e9.num,
        e8.num, e7.num, e6.num, e5.num, e4.num] using this
    · intro hu
      rw [U _ (by decide), ← e1.user, ← e2.user, ← e3.user] at hu
      have := p4 hu
      simpa [TolOk, N, e16.num, e15.num, e14.num, e13.num, e12.num, e11.num, f11.num, e10.num, e9.num,
        e8.num, e7.num, e6.num, e5.num] using this
    · rw [U _ (by decide), ← e1.user, ← e2.user, ← e3.user, ← e4.user, ← e5.user]
      simpa [S, e16.str, e15.str, e14.str, e13.str, e12.str, e11.str, f11.str, e10.str, e9.str, e8.str,
        e7.str, e6.str] using p5
    · simpa [S, e16.str, e15.str, e14.str, e13.str, e12.str, e11.str, f11.str, e10.str, e9.str, e8.str,
        e7.str] using p6
    · simp only [S, ne_eq, String.reduceEq, not_false_eq_true, e16.str, e15.str, e14.str, e13.str, e12.str,
        e11.str, f11.str, e10.str, e9.str, e8.str]
      intro hk s' hs'
      rcases p8 with q | q
      · rw [q] at hs'; exact p7f hk s' hs'
      · rw [q] at hs'; simp [← Option.some.inj hs']
    · simp only [S, ne_eq, String.reduceEq, not_false_eq_true, e16.str, e15.str, e14.str, e13.str, e12.str,
        e11.str, f11.str, e10.str, e9.str, e8.str]
      intro hk s' hs'
      rcases p8 with q | q
      · rw [q] at hs'; exact p7c hk s' hs'
      · rw [q] at hs'; simp [← Option.some.inj hs']
    · simpa [S, e16.str, e15.str, e14.str, e13.str, e12.str, e11.str, f11.str, e10.str, e9.str] using p8c
    · simpa [S, e16.str, e15.str, e14.str, e13.str, e12.str, e11.str, f11.str, e10.str] using p9c
    · simpa [S, e16.str, e15.str, e14.str, e13.str, e12.str, e11.str, f11.str, e10.str] using p9h
    · simpa [S, e16.str, e15.str, e14.str, e13.str, e12.str, e11.str, f11.str] using p10
    · intro hb
      have := p11g hb
      simp only [S, ne_eq, String.reduceEq, not_false_eq_true, e16.str, e15.str, e14.str]
      rcases p13' with q | q
      · rw [q, e12.str _ (by decide)]; exact this
      · simp [q]
    · simpa [S, e16.str, e15.str, e14.str, e13.str, e12.str] using p11m
    · rw [U _ (by decide), ← e1.user, ← e2.user, ← e3.user, ← e4.user, ← e5.user, ← e6.user, ← e7.user,
        ← e8.user, ← e9.user, ← e10.user, ← f11.user, ← e11.user, ← e12.user]
      simpa [S, e16.str, e15.str, e14.str, e13.str] using p12
    · simpa [S, e16.str, e15.str, e14.str] using p13
    · simpa [S, e16.str, e15.str] using p14
    · simpa [S, e16.str] using p15
    · simpa [N] using p16
    · exact p17
  · intro k hk
    simp only [ruleKeys, List.mem_cons, List.not_mem_nil, or_false, not_or] at hk
    obtain ⟨q1, q2, q3, q4, q5, q6, q7, q8, q9, q10, q11, q12, q13, q14, q15⟩ := hk
    rw [o17 k, e16.frame k q15, e15.frame k q14, e14.frame k q13, e13.frame k q10, e12.frame k q12,
      e11.frame k q11, f11.frame k q10, e10.frame k q9, e9.frame k q8, e8.frame k q7, e7.frame k q7,
      e6.frame k q6, e5.frame k q5, e4.frame k q4, e3.frame k q3, e2.frame k q2, e1.frame k q1]
  · intro k hk
    rw [u17 k hk, e16.user, e15.user, e14.user, e13.user, e12.user, e11.user, f11.user, e10.user, e9.user,
      e8.user, e7.user, e6.user, e5.user, e4.user, e3.user, e2.user, e1.user]
  · intro k hk
    have hk17 : inFile m17 k = inFile m16 k := by
      rcases hk with hk | hk
      · unfold inFile; rw [k17 k hk]
      · have : axomRule b m16 = some m16 := by simp [axomRule, hk]
        rw [this] at r17
        rw [Option.some.inj r17]
    rw [hk17, e16.file, e15.file, e14.file, e13.file, e12.file, e11.file, f11.file, e10.file, e9.file,
      e8.file, e7.file, e6.file, e5.file, e4.file, e3.file, e2.file, e1.file]
  · have t2 := e1.num "tolerance" (by decide)
    have t3 := (e2.num "tolerance" (by decide)).trans t2
    have t4 := (e3.num "tolerance" (by decide)).trans t3
    intro k hk
    simp only [tolKeys, List.mem_cons, List.not_mem_nil, or_false] at hk
    rcases hk with rfl | rfl | rfl | rfl
    · simpa [N, e16.num, e15.num, e14.num, e13.num, e12.num, e11.num, f11.num, e10.num, e9.num,
        e8.num, e7.num, e6.num, e5.num, e4.num, e3.num, e2.num] using v1
    · simpa [N, e16.num, e15.num, e14.num, e13.num, e12.num, e11.num, f11.num, e10.num, e9.num,
        e8.num, e7.num, e6.num, e5.num, e4.num, e3.num, t2, e1.num] using v2
    · simpa [N, e16.num, e15.num, e14.num, e13.num, e12.num, e11.num, f11.num, e10.num, e9.num,
        e8.num, e7.num, e6.num, e5.num, e4.num, t3, e1.num, e2.num] using v3
    · simpa [N, e16.num, e15.num, e14.num, e13.num, e12.num, e11.num, f11.num, e10.num, e9.num,
        e8.num, e7.num, e6.num, e5.num, t4, e1.num, e2.num, e3.num] using v4

theorem movingRule_id (h0 : InRange nan (nlpTable b) m) (hc : getNum m "moving_lim_rel" = some (some 0) ∨
    (getNum m "moving_lim_abs" = some (some 0) ∧ getNum m "moving_lim_rel" ≠ some none)) :
    movingRule m = some m := by
  have hk := h0 "moving_lim_rel"
  rw [show (nlpTable b).lookup "moving_lim_rel" = some (.num (some 0) 0 1) from rfl] at hk
  obtain ⟨⟨o, f, g⟩, hm, hs, h3⟩ := hk
  obtain ⟨a, h2, _⟩ := getNum_of_lookup (adm_valid nan) h0 (k := "moving_lim_abs") rfl
  cases o with
  | str => simp [SameReg] at hs
  | int => simp [SameReg] at hs
  | num r lb ub =>
  simp only [SameReg] at hs
  obtain ⟨rfl, rfl⟩ := hs
  have h1 : getNum m "moving_lim_rel" = some r := by simp [getNum, hm]
  unfold movingRule
  simp only [h1, h2, Option.bind_eq_bind, Option.bind_some]
  rw [h1, h2] at hc
  rcases hc with hc | ⟨hc, hr⟩
  · obtain rfl := Option.some.inj hc
    split
    · simp only [setValNum, hm]
      rw [if_neg (by simp [outside, ltD])]
      rw [← hm, Function.update_eq_self]
    · rfl
  · obtain rfl := Option.some.inj hc
    cases r with
    | none => exact absurd rfl hr
    | some r => simp [prodNonzero]

/-- The pass changes nothing on a store that is already consistent. -/
theorem ensureNlp_id (h : InRange nan (nlpTable b) m) (hc : Consistent b m) : ensureNlp b m = some m := by
  have r1 : tolRule "acceptable_tolerance" m = some m := tolRule_id (adm_valid nan) h rfl rfl hc.acc
  have r2 : tolRule "dual_tol" m = some m := tolRule_id (adm_valid nan) h rfl rfl hc.dual
  have r3 : tolRule "cons_tol" m = some m := tolRule_id (adm_valid nan) h rfl rfl hc.cons
  have r4 : tolRule "comp_tol" m = some m := tolRule_id (adm_valid nan) h rfl rfl hc.comp
  obtain ⟨hs, g1, _⟩ := getStr_of_lookup h (k := "Hessian") rfl
  obtain ⟨k, g2, _⟩ := getStr_of_lookup h (k := "KKTLinsys") rfl
  obtain ⟨d, g3, _⟩ := getStr_of_lookup h (k := "duals_update_type") rfl
  obtain ⟨s, g4, _⟩ := getStr_of_lookup h (k := "linear_solver_sparse") rfl
  obtain ⟨e, g5, _⟩ := getStr_of_lookup h (k := "ginkgo_exec") rfl
  obtain ⟨o, g6, _⟩ := getStr_of_lookup h (k := "linear_solver_sparse_ordering") rfl
  obtain ⟨cm, g7, _⟩ := getStr_of_lookup h (k := "compute_mode") rfl
  obtain ⟨ms, g8, _⟩ := getStr_of_lookup h (k := "mem_space") rfl
  obtain ⟨cs, g9, _⟩ := getStr_of_lookup h (k := "callback_mem_space") rfl
  obtain ⟨fv, g10, _⟩ := getStr_of_lookup h (k := "fixed_var") rfl
  obtain ⟨fa, g11, _⟩ := getStr_of_lookup h (k := "fact_acceptor") rfl
  have r5 : hessKktRule m = some m := by
    rw [hessKkt_eq g1 g2, if_neg]
    intro hq
    simp only [Bool.and_eq_true, beq_iff_eq] at hq
    have := hc.hessKkt (by rw [g1, hq.1]) hq.2.2
    rw [g2] at this
    rcases this with q | q <;> simp [Option.some.inj q] at hq
  have r6 : hessDualsRule m = some m := by
    rw [hessDuals_eq g1 g3, if_neg]
    intro hq
    simp only [Bool.and_eq_true, beq_iff_eq, bne_iff_ne] at hq
    have := hc.hessDuals (by rw [g1, hq.1])
    rw [g3] at this
    exact hq.2 (Option.some.inj this)
  have r7 : kktSolverRule s m = some m := by
    rw [kktSolver_eq g2, if_neg]
    intro hq
    simp only [Bool.or_eq_true, Bool.and_eq_true, beq_iff_eq, bne_iff_ne] at hq
    rcases hq with ⟨q1, q2⟩ | ⟨q1, q2⟩
    · have := hc.kktFull (by rw [g2, q1]) s g4
      rcases this with a | a | a | a
      · exact q2.1.1.1 a
      · exact q2.1.1.2 a
      · exact q2.1.2 a
      · exact q2.2 a
    · have := hc.kktCond (by rw [g2, q1]) s g4
      rcases this with a | a
      · exact q2.1 a
      · exact q2.2 a
  have r8 : cudaSolverRule b s m = some m := by
    unfold cudaSolverRule
    rw [if_neg]
    intro hq
    simp only [Bool.or_eq_true, Bool.and_eq_true, beq_iff_eq, Bool.not_eq_true'] at hq
    have := hc.cuda hq.1
    rw [g4] at this
    rcases hq.2 with q | q <;> simp [q] at this
  have r9 : ginkgoRule b s m = some m := by
    unfold ginkgoRule
    cases hg : b.ginkgo with
    | false => simp
    | true =>
      simp only [if_true, g5, Option.bind_eq_bind, Option.bind_some]
      have c1 : (!b.cuda && s == "ginkgo" && e == "cuda") = false := by
        rw [Bool.eq_false_iff]
        intro hq
        simp only [Bool.and_eq_true, beq_iff_eq, Bool.not_eq_true'] at hq
        exact hc.ginkgoCuda hg hq.1.1 (by rw [g4, hq.1.2]) (by rw [g5, hq.2])
      have c2 : (!b.hip && s == "ginkgo" && e == "hip") = false := by
        rw [Bool.eq_false_iff]
        intro hq
        simp only [Bool.and_eq_true, beq_iff_eq, Bool.not_eq_true'] at hq
        exact hc.ginkgoHip hg hq.1.1 (by rw [g4, hq.1.2]) (by rw [g5, hq.2])
      simp only [c1, c2, assignIf, Bool.false_eq_true, if_false, Option.bind_some]
  have r10 : orderingRule b m = some m := by
    unfold orderingRule
    split
    · rename_i hq
      simp only [Bool.and_eq_true, Bool.not_eq_true'] at hq
      have := hc.ordering hq.1 hq.2
      rw [g6] at this
      simp only [g6, Option.bind_eq_bind, Option.bind_some]
      rw [if_neg]
      intro q
      exact this (by rw [beq_iff_eq.1 q])
    · rfl
  have r11 : rajaRule b m = some m := by
    unfold rajaRule
    split
    · rename_i hq
      simp only [Bool.not_eq_true'] at hq
      have q1 := hc.rajaMode hq
      have q2 := hc.rajaMem hq
      rw [g7] at q1
      rw [g8] at q2
      have q1' : (cm == "gpu") = false := by simpa using q1
      have q2' : (ms != "default") = false := by simpa using q2
      simp only [g7, g8, q1', q2', assignIf, Option.bind_eq_bind, Option.bind_some, Bool.false_eq_true,
        if_false]
    · rfl
  have r12 : memSpaceRule m = some m := by
    rw [memSpace_eq g8 g9, if_neg]
    intro hq
    simp only [Bool.or_eq_true, Bool.and_eq_true, beq_iff_eq, bne_iff_ne] at hq
    have := hc.memSpace
    rw [g8, g9] at this
    simp only [Option.some.injEq, ne_eq] at this
    rcases this with q | ⟨q1, q2, q3⟩
    · exact hq.1 q.symm
    · rcases hq.2 with (⟨a1, a2⟩ | ⟨a1, a2⟩) | a1
      · exact a2 (q2 a1)
      · exact q3 a2 a1
      · exact q1 a1
  have r13 : gpuRule b m = some m := by
    unfold gpuRule
    split
    · rename_i hq
      simp only [Bool.not_eq_true'] at hq
      have q1 := hc.gpu hq
      simp [q1, assignIf]
    · rfl
  have r14 : fixedVarRule m = some m := by
    rw [fixedVar_eq g7 g10, if_neg]
    intro hq
    simp only [Bool.and_eq_true, beq_iff_eq] at hq
    exact hc.fixedVar (by rw [g7, hq.1]) (by rw [g10, hq.2])
  have r15 : inertiaRule m = some m := by
    rw [inertia_eq g2 g4 g11, if_neg]
    intro hq
    simp only [Bool.or_eq_true, Bool.and_eq_true, beq_iff_eq] at hq
    refine hc.inertia ?_ (by rw [g11, hq.2])
    rw [g2, g4]
    simpa using hq.1
  have r16 : movingRule m = some m := movingRule_id h hc.moving
  have r17 : axomRule b m = some m := by
    unfold axomRule
    rw [if_neg]
    intro hq
    simp only [Bool.and_eq_true, Bool.not_eq_true', List.any_eq_true] at hq
    obtain ⟨hb, x, hx, hu⟩ := hq
    rw [hc.axom hb x hx] at hu
    exact absurd hu (by decide)
  simp only [ensureNlp, r1, r2, r3, r4, r5, r6, g4, r7, r8, r9, r10, r11, r12, r13, r14, r15, r16,
    Option.bind_eq_bind, Option.bind_some, r17]

end Hiop.Options
