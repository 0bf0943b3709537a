import Verif.Options.Consist

/-!
# C26: options hold registered, in-range, mutually consistent values

A history is: construction from an options file with arbitrary lines, then any sequence of calls of the
setters.  The theorems hold for every history and every combination of build flags.
-/

namespace Hiop.Options

variable {nan : Bool} {b : Build}

/-! ### The NLP registry -/

theorem nlp_names (b : Build) : ((nlpTable b).map Prod.fst).Nodup := by
  have h : (nlpTable b).map Prod.fst = (nlpTable ⟨false, false, false, false, false, false, false⟩).map Prod.fst :=
    rfl
  rw [h]
  decide +kernel

/-- Decidable form of `Valid true`. -/
def validB : Opt → Bool
  | .num (some v) lb ub => lb ≤ v && v ≤ ub
  | .num none _ _ => false
  | .int v lb ub => lb ≤ v && v ≤ ub
  | .str v r => r.isEmpty || r.contains v

theorem valid_of_validB {o : Opt} (h : validB o = true) : Valid nan o := by
  cases o with
  | num v lb ub => cases v <;> simp [validB] at h; exact h
  | int v lb ub => simp [validB] at h; exact h
  | str v r => simp [validB, List.isEmpty_iff] at h; exact h

theorem nlp_defaults (b : Build) : ∀ p ∈ nlpTable b, Valid nan p.2 := by
  obtain ⟨a1, a2, a3, a4, a5, a6, a7⟩ := b
  have h : ∀ a1 a2 a3 a4 : Bool,
      (nlpTable ⟨a1, a2, a3, a4, false, false, false⟩).all (fun p => validB p.2) = true := by decide +kernel
  have h1 : (nlpTable ⟨a1, a2, a3, a4, a5, a6, a7⟩).all (fun p => validB p.2) = true := h a1 a2 a3 a4
  rw [List.all_eq_true] at h1
  exact fun p hp => valid_of_validB (h1 p hp)

theorem nlp_ensOk : EnsOk (fun _ => Valid nan) (nlpTable b) (ensureNlp b) := by
  intro m h
  obtain ⟨m', h1, h2, _⟩ := ensureNlp_ok h
  exact ⟨m', h1, h2⟩

/-- A history of the NLP options under build `b`. -/
def nlpHistory (b : Build) (P : Parser) (file : List String) (calls : List Call) : Option Store :=
  history (nlpTable b) (ensureNlp b) P file calls

/-- Construction succeeds, in range and consistent. -/
theorem nlp_construct (P : Parser) (hP : ∀ s, P.num s = some none → nan = true) (file : List String) :
    ∃ m, construct (nlpTable b) (ensureNlp b) P file = some m ∧ InRange nan (nlpTable b) m ∧
      Consistent b m := by
  obtain ⟨m1, h1, h2⟩ := foldlM_inv (InRange nan (nlpTable b)) (loadLine (ensureNlp b) P) file
    (fun s hs line _ => loadLine_wf (adm_valid nan) nlp_ensOk hP hs line) _
    (register_wf (nlp_names b) (nlp_defaults b))
  obtain ⟨m', h3, h4, h5, _⟩ := ensureNlp_ok h2
  exact ⟨m', by simp only [construct, h1, Option.bind_eq_bind, Option.bind_some]; exact h3, h4, h5⟩

/-- Any setter either leaves the store alone or ends with the consistency pass. -/
theorem Call.run_consistent {m : Store} (h : InRange nan (nlpTable b) m) (hc : Consistent b m) (c : Call)
    (hp : c.Proper nan) : ∃ m', c.run (ensureNlp b) m = some m' ∧ InRange nan (nlpTable b) m' ∧
      Consistent b m' := by
  obtain ⟨m', h1, h2⟩ := c.run_wf (adm_valid nan) nlp_ensOk h hp
  refine ⟨m', h1, h2, ?_⟩
  have key : ∀ m0, ensureNlp b m0 = some m' → InRange nan (nlpTable b) m0 → Consistent b m' := by
    intro m0 he hw
    obtain ⟨m'', e1, _, e3, _⟩ := ensureNlp_ok hw
    rw [he] at e1
    rw [Option.some.inj e1]; exact e3
  cases c with
  | num k v f =>
    simp only [Call.run, setNumeric] at h1
    split at h1
    · rename_i old lb ub fl r hk
      split at h1
      · rw [← Option.some.inj h1]; exact hc
      · refine key _ h1 (h.upd hk (by simp [SameReg]) ?_)
        cases ho : outside v lb ub with
        | true => simpa using h.valid hk
        | false => simpa using valid_num ho hp
    · exact key _ h1 h
  | int k v f =>
    simp only [Call.run, setInteger] at h1
    split at h1
    · rename_i old lb ub fl r hk
      split at h1
      · rw [← Option.some.inj h1]; exact hc
      · refine key _ h1 (h.upd hk (by simp [SameReg]) ?_)
        by_cases ho : v < lb ∨ v > ub
        · simpa [ho] using h.valid hk
        · simp only [ho, if_false, Valid]
          omega
    · exact key _ h1 h
  | str k v f =>
    simp only [Call.run, setString] at h1
    split at h1
    · rename_i old range fl r hk
      split at h1
      · rw [← Option.some.inj h1]; exact hc
      · refine key _ h1 (h.upd hk (by simp [SameReg]) ?_)
        cases ho : strOutside (lower v) range with
        | true => simpa using h.valid hk
        | false => simpa using valid_str ho
    · exact key _ h1 h

theorem nlp_history (P : Parser) (hP : ∀ s, P.num s = some none → nan = true) (file : List String)
    (calls : List Call) (hcalls : ∀ c ∈ calls, c.Proper nan) :
    ∃ m, nlpHistory b P file calls = some m ∧ InRange nan (nlpTable b) m ∧ Consistent b m := by
  obtain ⟨m0, h1, h2, h3⟩ := nlp_construct (b := b) P hP file
  obtain ⟨m, h4, h5, h6⟩ := foldlM_inv (fun m => InRange nan (nlpTable b) m ∧ Consistent b m)
    (Call.run (ensureNlp b)) calls
    (fun s hs c hc => by
      obtain ⟨m', q1, q2, q3⟩ := Call.run_consistent hs.1 hs.2 c (hcalls c hc)
      exact ⟨m', q1, q2, q3⟩) m0 ⟨h2, h3⟩
  exact ⟨m, by simp only [nlpHistory, history, h1, Option.bind_eq_bind, Option.bind_some]; exact h4, h5, h6⟩

/-- Whatever the history, no assertion of the options code fails and, as long as no value that is not a
number is passed, every registered option holds a value of its registered type within its registered range,
and no other option exists. -/
theorem C26_in_range (b : Build) (P : Parser) (file : List String) (calls : List Call)
    (hP : ∀ s, P.num s ≠ some none) (hcalls : ∀ c ∈ calls, c.Proper false) :
    ∃ m, nlpHistory b P file calls = some m ∧
      ∀ n, match (nlpTable b).lookup n with
        | none => m n = none
        | some o => ∃ e, m n = some e ∧ SameReg o e.o ∧ Valid false e.o := by
  obtain ⟨m, h1, h2, _⟩ := nlp_history (nan := false) (b := b) P (fun s h => absurd h (hP s)) file calls hcalls
  exact ⟨m, h1, h2⟩

/-- Without restriction on the values passed no assertion fails either, and only numeric options that were
given a value that is not a number are out of range. -/
theorem C26_never_aborts (b : Build) (P : Parser) (file : List String) (calls : List Call) :
    ∃ m, nlpHistory b P file calls = some m ∧ InRange true (nlpTable b) m := by
  obtain ⟨m, h1, h2, _⟩ := nlp_history (nan := true) (b := b) P (fun _ _ => rfl) file calls
    (fun c _ => by cases c <;> simp [Call.Proper])
  exact ⟨m, h1, h2⟩

/-- A build without optional packages. -/
def plain : Build := ⟨false, false, false, false, false, false, false⟩

/-- A parser that recognises a few literals, for examples. -/
def demoP : Parser where
  num := fun s => if s = "1e-6" then some (some (1 / 10 ^ 6)) else if s = "0.5" then some (some (1 / 2)) else none
  int := fun s => if s = "100" then some 100 else none

/-- A file with a comment, settings, an unknown option and a line without a value. -/
def demoFile : List String := ["# comment", "tolerance 1e-6", "max_iter  100", "nonsense 3", "Hessian"]

/-- Calls with a good value, a value out of range and a value in capitals. -/
def demoCalls : List Call :=
  [.num "mu0" (some 2) false, .num "mu0" (some 10000) false, .str "duals_init" "ZERO" false]

example : (nlpHistory plain demoP demoFile demoCalls).map
    (fun m => (getNum m "tolerance", getInt m "max_iter", getNum m "mu0")) =
    some (some (some (1 / 10 ^ 6)), some 100, some (some 2)) := by decide +kernel

example : (nlpHistory plain demoP demoFile demoCalls).map
    (fun m => (getStr m "duals_init", getStr m "compute_mode", (m "nonsense").isSome)) =
    some (some "zero", some "cpu", false) := by decide +kernel

example : (∀ s, demoP.num s ≠ some none) ∧ ∀ c ∈ demoCalls, c.Proper false := by
  refine ⟨fun s => ?_, fun c hc => ?_⟩
  · simp only [demoP]; split
    · simp
    · split <;> simp
  · simp only [demoCalls, List.mem_cons, List.not_mem_nil, or_false] at hc
    rcases hc with rfl | rfl | rfl <;> simp [Call.Proper]

/-- The range check does not reject a value that is not a number: after `SetNumericValue("tolerance", NaN)`
the option holds it. -/
theorem C26_nan_false : ¬ ∀ (b : Build) (P : Parser) (file : List String) (calls : List Call) (m : Store),
    nlpHistory b P file calls = some m → InRange false (nlpTable b) m := by
  intro h
  obtain ⟨m, h1, _⟩ := C26_never_aborts plain demoP [] [.num "tolerance" none false]
  have h2 : ((nlpHistory plain demoP [] [.num "tolerance" none false]).bind
      fun m => getNum m "tolerance") = some none := by decide +kernel
  rw [h1] at h2
  obtain ⟨v, hv, hv'⟩ := getNum_of_lookup (adm_valid false) (h plain demoP [] _ m h1) (k := "tolerance") rfl
  simp only [Option.bind_some, hv, Option.some.injEq] at h2
  subst h2
  exact absurd hv' (by simp [Valid])

/-- After any history the relations between options listed in `Consistent` hold. -/
theorem C26_consistent (b : Build) (P : Parser) (file : List String) (calls : List Call) (m : Store)
    (h : nlpHistory b P file calls = some m) : Consistent b m := by
  obtain ⟨m', h1, _, h3⟩ := nlp_history (nan := true) (b := b) P (fun _ _ => rfl) file calls
    (fun c _ => by cases c <;> simp [Call.Proper])
  rw [h] at h1
  rw [Option.some.inj h1]; exact h3

example : (nlpHistory plain demoP ["KKTLinsys full", "linear_solver_sparse ma57"]
    [.str "Hessian" "analytical_exact" false]).map
      (fun m => (getStr m "KKTLinsys", getStr m "linear_solver_sparse", getStr m "fact_acceptor",
        getStr m "duals_update_type")) =
    some (some "full", some "auto", some "inertia_free", some "linear") := by
  decide +kernel

theorem history_facts {b : Build} {P : Parser} {file : List String} {calls : List Call} {m : Store}
    (h : nlpHistory b P file calls = some m) : InRange true (nlpTable b) m ∧ Consistent b m := by
  obtain ⟨m', h1, h2⟩ := C26_never_aborts b P file calls
  rw [h] at h1
  rw [Option.some.inj h1]
  exact ⟨h2, C26_consistent b P file calls m' (h1 ▸ h)⟩

/-- The documented restriction that the Newton KKT systems need the exact Hessian is *not* enforced when
the Hessian was not specified in the options file: settings made through the API are not recorded for
integer and string options, and the rule only fires for a recorded Hessian. -/
theorem C26_hessian_kkt_false : ¬ ∀ (b : Build) (P : Parser) (file : List String) (calls : List Call)
    (m : Store), nlpHistory b P file calls = some m →
      getStr m "Hessian" = some "quasinewton_approx" →
      getStr m "KKTLinsys" = some "auto" ∨ getStr m "KKTLinsys" = some "condensed" := by
  intro h
  obtain ⟨m, h1, _⟩ := C26_never_aborts plain demoP []
    [.str "Hessian" "quasinewton_approx" false, .str "KKTLinsys" "xdycyd" false]
  have h2 : (nlpHistory plain demoP [] [.str "Hessian" "quasinewton_approx" false,
      .str "KKTLinsys" "xdycyd" false]).map (fun m => (getStr m "Hessian", getStr m "KKTLinsys")) =
      some (some "quasinewton_approx", some "xdycyd") := by decide +kernel
  rw [h1] at h2
  simp only [Option.map_some, Option.some.injEq, Prod.mk.injEq] at h2
  have := h _ _ _ _ m h1 h2.1
  rw [h2.2] at this
  exact absurd this (by decide)

/-! ### Settings that must have no effect -/

/-- The call names no registered option of its type. -/
def Call.Unknown (t : List (String × Opt)) : Call → Prop
  | .num k _ _ => ∀ v lb ub, t.lookup k ≠ some (.num v lb ub)
  | .int k _ _ => ∀ v lb ub, t.lookup k ≠ some (.int v lb ub)
  | .str k _ _ => ∀ v r, t.lookup k ≠ some (.str v r)

/-- What the registry says about an entry of a well-formed store. -/
theorem lookup_of_entry {V : String → Opt → Prop} {t : List (String × Opt)} {m : Store} (h : WF V t m)
    {k : String} {e : Entry} (hk : m k = some e) : ∃ o, t.lookup k = some o ∧ SameReg o e.o := by
  have hn := h k
  cases hl : t.lookup k with
  | none => rw [hl] at hn; simp [hk] at hn
  | some o =>
    rw [hl] at hn
    obtain ⟨e0, h1, h2, _⟩ := hn
    rw [hk] at h1
    obtain rfl := Option.some.inj h1
    exact ⟨o, rfl, h2⟩

/-- Setting an option that does not exist, or through the setter of another type, changes nothing. -/
theorem C26_unknown_ignored (b : Build) (P : Parser) (file : List String) (calls : List Call) (m : Store)
    (h : nlpHistory b P file calls = some m) (c : Call) (hc : c.Unknown (nlpTable b)) :
    c.run (ensureNlp b) m = some m := by
  obtain ⟨hw, hcons⟩ := history_facts h
  have hid := ensureNlp_id hw hcons
  cases c with
  | num k v f =>
    simp only [Call.run, setNumeric]
    split
    · rename_i old lb ub fl r hk
      obtain ⟨o, h1, h2⟩ := lookup_of_entry hw hk
      cases o with
      | num v' lb' ub' => exact absurd h1 (hc _ _ _)
      | int => simp [SameReg] at h2
      | str => simp [SameReg] at h2
    · exact hid
  | int k v f =>
    simp only [Call.run, setInteger]
    split
    · rename_i old lb ub fl r hk
      obtain ⟨o, h1, h2⟩ := lookup_of_entry hw hk
      cases o with
      | int v' lb' ub' => exact absurd h1 (hc _ _ _)
      | num => simp [SameReg] at h2
      | str => simp [SameReg] at h2
    · exact hid
  | str k v f =>
    simp only [Call.run, setString]
    split
    · rename_i old range fl r hk
      obtain ⟨o, h1, h2⟩ := lookup_of_entry hw hk
      cases o with
      | str v' r' => exact absurd h1 (hc _ _)
      | num => simp [SameReg] at h2
      | int => simp [SameReg] at h2
    · exact hid

example : (Call.num "max_iter" (some 5) false).Unknown (nlpTable plain) := by
  intro v lb ub h
  rw [show (nlpTable plain).lookup "max_iter" = some (.int 3000 1 (10 ^ 6)) from rfl] at h
  simp at h

example : (Call.str "no_such_option" "x" false).Unknown (nlpTable plain) := by
  intro v r h
  rw [show (nlpTable plain).lookup "no_such_option" = none from rfl] at h
  simp at h

/-- The value passed is outside the registered range of the named option. -/
def Call.Rejected (t : List (String × Opt)) : Call → Prop
  | .num k v _ => ∃ d lb ub, t.lookup k = some (.num d lb ub) ∧ outside v lb ub = true
  | .int k v _ => ∃ d lb ub, t.lookup k = some (.int d lb ub) ∧ (v < lb ∨ v > ub)
  | .str k v _ => ∃ d r, t.lookup k = some (.str d r) ∧ strOutside (lower v) r = true

/-- The name a call is about. -/
def Call.name : Call → String
  | .num k _ _ => k
  | .int k _ _ => k
  | .str k _ _ => k

/-- Whether the call claims to come from the options file. -/
def Call.isFile : Call → Bool
  | .num _ _ f => f
  | .int _ _ f => f
  | .str _ _ f => f

theorem update_same {m : Store} {k : String} {e : Entry} (h : m k = some e) :
    Function.update m k (some e) = m := by
  rw [← h, Function.update_eq_self]

/-- Consistency only looks at the "user defined" marks of a few options. -/
theorem Consistent.mark {m m' : Store} (h : Consistent b m)
    (ho : ∀ k, (m' k).map Entry.o = (m k).map Entry.o)
    (hu : ∀ k ∈ tolKeys ++ ["Hessian", "callback_mem_space"] ++ chkOpts, userDefined m' k = userDefined m k) :
    Consistent b m' := by
  have S : ∀ k, getStr m' k = getStr m k := fun k => getStr_congr (ho k)
  have N : ∀ k, getNum m' k = getNum m k := fun k => getNum_congr (ho k)
  constructor
  · unfold TolOk; rw [hu _ (by decide)]; simpa only [N, TolOk] using h.acc
  · unfold TolOk; rw [hu _ (by decide)]; simpa only [N, TolOk] using h.dual
  · unfold TolOk; rw [hu _ (by decide)]; simpa only [N, TolOk] using h.cons
  · unfold TolOk; rw [hu _ (by decide)]; simpa only [N, TolOk] using h.comp
  · rw [hu _ (by decide)]; simpa only [S] using h.hessKkt
  · simpa only [S] using h.hessDuals
  · simpa only [S] using h.kktFull
  · simpa only [S] using h.kktCond
  · simpa only [S] using h.cuda
  · simpa only [S] using h.ginkgoCuda
  · simpa only [S] using h.ginkgoHip
  · simpa only [S] using h.ordering
  · simpa only [S] using h.rajaMode
  · simpa only [S] using h.rajaMem
  · rw [hu _ (by decide)]; simpa only [S] using h.memSpace
  · simpa only [S] using h.gpu
  · simpa only [S] using h.fixedVar
  · simpa only [S] using h.inertia
  · simpa only [N] using h.moving
  · intro hb k hk
    rw [hu k (by simp only [List.mem_append]; exact Or.inr hk)]
    exact h.axom hb k hk

/-- A run-time setting outside the registered range leaves every option's value unchanged — except that
it may concern one of the four tolerances, see `C26_rejected_false`. -/
theorem C26_rejected_partial (b : Build) (P : Parser) (file : List String) (calls : List Call) (m : Store)
    (h : nlpHistory b P file calls = some m) (c : Call) (hc : c.Rejected (nlpTable b))
    (hf : c.isFile = false) (hk : c.name ∉ tolKeys) :
    ∃ m', c.run (ensureNlp b) m = some m' ∧ ∀ n, (m' n).map Entry.o = (m n).map Entry.o := by
  obtain ⟨hw, hcons⟩ := history_facts h
  have hid := ensureNlp_id hw hcons
  cases c with
  | num k v f =>
    obtain ⟨d, lb, ub, hl, hout⟩ := hc
    simp only [Call.isFile] at hf
    subst hf
    simp only [Call.name] at hk
    have hn := hw k
    rw [hl] at hn
    obtain ⟨⟨o, f, g⟩, h1, h2, h3⟩ := hn
    cases o with
    | int => simp [SameReg] at h2
    | str => simp [SameReg] at h2
    | num old lb' ub' =>
    simp only [SameReg] at h2
    obtain ⟨rfl, rfl⟩ := h2
    simp only [Call.run, setNumeric, h1, hout, if_true]
    split
    · exact ⟨m, rfl, fun _ => rfl⟩
    · let m1 : Store := Function.update m k (some ⟨.num old lb ub, f || false, g || !false⟩)
      have ho : ∀ n, (m1 n).map Entry.o = (m n).map Entry.o := by
        intro n
        by_cases hn : n = k
        · subst hn; simp [m1, h1]
        · simp only [m1]; rw [Function.update_of_ne hn]
      have hne : ∀ k' ∈ tolKeys ++ ["Hessian", "callback_mem_space"] ++ chkOpts, k' ≠ k := by
        intro k' hk' he
        subst he
        simp only [List.mem_append] at hk'
        rcases hk' with (q | q) | q
        · exact hk q
        · simp only [List.mem_cons, List.not_mem_nil, or_false] at q
          rcases q with rfl | rfl
          · rw [show (nlpTable b).lookup "Hessian" = some (.str "quasinewton_approx"
              ["quasinewton_approx", "analytical_exact"]) from rfl] at hl
            simp at hl
          · rw [show (nlpTable b).lookup "callback_mem_space" = some (.str "default" (memSpaces b))
              from rfl] at hl
            simp at hl
        · simp only [chkOpts, List.mem_cons, List.not_mem_nil, or_false] at q
          rcases q with rfl | rfl | rfl | rfl
          · rw [show (nlpTable b).lookup "checkpoint_save" = some (.str "no" ["yes", "no"]) from rfl] at hl
            simp at hl
          · rw [show (nlpTable b).lookup "checkpoint_save_every_N_iter" = some (.int 10 1 (10 ^ 6))
              from rfl] at hl
            simp at hl
          · rw [show (nlpTable b).lookup "checkpoint_file" = some (.str "hiop_state_chk" []) from rfl] at hl
            simp at hl
          · rw [show (nlpTable b).lookup "checkpoint_load_on_start" = some (.str "no" ["yes", "no"])
              from rfl] at hl
            simp at hl
      have hc1 : Consistent b m1 := hcons.mark ho (fun k' hk' => by
        unfold userDefined
        simp only [m1]
        rw [Function.update_of_ne (hne k' hk')])
      exact ⟨m1, ensureNlp_id (hw.congr ho) hc1, ho⟩
  | int k v f =>
    obtain ⟨d, lb, ub, hl, hout⟩ := hc
    simp only [Call.isFile] at hf
    subst hf
    have hn := hw k
    rw [hl] at hn
    obtain ⟨⟨o, f, g⟩, h1, h2, h3⟩ := hn
    cases o with
    | num => simp [SameReg] at h2
    | str => simp [SameReg] at h2
    | int old lb' ub' =>
    simp only [SameReg] at h2
    obtain ⟨rfl, rfl⟩ := h2
    simp only [Call.run, setInteger, h1, hout, if_true, Bool.or_false]
    split
    · exact ⟨m, rfl, fun _ => rfl⟩
    · rw [update_same h1]; exact ⟨m, hid, fun _ => rfl⟩
  | str k v f =>
    obtain ⟨d, r, hl, hout⟩ := hc
    simp only [Call.isFile] at hf
    subst hf
    have hn := hw k
    rw [hl] at hn
    obtain ⟨⟨o, f, g⟩, h1, h2, h3⟩ := hn
    cases o with
    | num => simp [SameReg] at h2
    | int => simp [SameReg] at h2
    | str old r' =>
    simp only [SameReg] at h2
    subst h2
    simp only [Call.run, setString, h1, hout, if_true, Bool.or_false]
    split
    · exact ⟨m, rfl, fun _ => rfl⟩
    · rw [update_same h1]; exact ⟨m, hid, fun _ => rfl⟩

example : (Call.num "mu0" (some 5000) false).Rejected (nlpTable plain) ∧
    (Call.num "mu0" (some 5000) false).name ∉ tolKeys :=
  ⟨⟨some 1, 1 / 10 ^ 16, 1000, rfl, by decide +kernel⟩, by decide⟩

/-- A rejected setting of a tolerance is not without effect: it marks the tolerance as set by the user, and
the consistency pass then replaces its value.  Here `comp_tol` changes from `1e-4` to `1e-2` because the value
`1e30` was *refused*. -/
theorem C26_rejected_false : ¬ ∀ (b : Build) (P : Parser) (file : List String) (calls : List Call) (m m' : Store)
    (c : Call), nlpHistory b P file calls = some m → c.Rejected (nlpTable b) → c.isFile = false →
      c.run (ensureNlp b) m = some m' → ∀ n, (m' n).map Entry.o = (m n).map Entry.o := by
  intro h
  let calls : List Call := [.num "tolerance" (some (1 / 100)) false]
  let c : Call := .num "comp_tol" (some (10 ^ 30)) false
  have e1 : ((nlpHistory plain demoP [] calls).bind fun m => getNum m "comp_tol") = some (some (1 / 10 ^ 4)) := by
    decide +kernel
  have e2 : ((nlpHistory plain demoP [] calls).bind fun m => (c.run (ensureNlp plain) m).bind
      fun m' => getNum m' "comp_tol") = some (some (1 / 100)) := by
    decide +kernel
  obtain ⟨m, h1, _⟩ := C26_never_aborts plain demoP [] calls
  obtain ⟨m', h2, _⟩ := Call.run_wf (adm_valid true) nlp_ensOk (history_facts h1).1 c
    (by simp [c, Call.Proper])
  rw [h1] at e1 e2
  simp only [Option.bind_some] at e1 e2
  rw [h2] at e2
  simp only [Option.bind_some] at e2
  have h3 := h plain demoP [] calls m m' c h1 ⟨_, _, _, rfl, by decide +kernel⟩ rfl h2 "comp_tol"
  rw [getNum_congr h3, e1] at e2
  exact absurd e2 (by decide +kernel)

/-! ### Settings that must take effect -/

/-- An accepted numeric setting of an option no consistency rule may change: the getter then returns the value
passed, and the other options outside `ruleKeys` keep theirs. -/
theorem C26_set_numeric (b : Build) (P : Parser) (file : List String) (calls : List Call) (m : Store)
    (h : nlpHistory b P file calls = some m) (k : String) (v : ℚ) (f : Bool) (d : Option ℚ) (lb ub : ℚ)
    (hl : (nlpTable b).lookup k = some (.num d lb ub)) (h1 : lb ≤ v) (h2 : v ≤ ub)
    (hf : inFile m k = false ∨ f = true) (hk : k ∉ ruleKeys) :
    ∃ m', setNumeric (ensureNlp b) m k (some v) f = some m' ∧ getNum m' k = some (some v) ∧
      ∀ n, n ∉ ruleKeys → n ≠ k → (m' n).map Entry.o = (m n).map Entry.o := by
  obtain ⟨hw, hcons⟩ := history_facts h
  have hn := hw k
  rw [hl] at hn
  obtain ⟨⟨o, fl, g⟩, e1, e2, e3⟩ := hn
  cases o with
  | int => simp [SameReg] at e2
  | str => simp [SameReg] at e2
  | num old lb' ub' =>
  simp only [SameReg] at e2
  obtain ⟨rfl, rfl⟩ := e2
  have hout : outside (some v) lb ub = false := by simp [outside, ltD, h1, h2]
  have hfl : (fl && !f) = false := by
    rcases hf with q | q
    · simp [inFile, e1] at q; simp [q]
    · simp [q]
  simp only [setNumeric, e1, hout, hfl, Bool.false_eq_true, if_false]
  obtain ⟨m', q1, _, _, q4, _⟩ := ensureNlp_ok (b := b)
    (hw.upd (e' := ⟨.num (some v) lb ub, fl || f, g || !f⟩) e1 (by simp [SameReg]) ⟨h1, h2⟩)
  refine ⟨m', q1, ?_, fun n hn hnk => ?_⟩
  · rw [getNum_congr (q4 k hk)]
    simp [getNum]
  · rw [q4 n hn, Function.update_of_ne hnk]

/-- The same for integers. -/
theorem C26_set_integer (b : Build) (P : Parser) (file : List String) (calls : List Call) (m : Store)
    (h : nlpHistory b P file calls = some m) (k : String) (v : ℤ) (f : Bool) (d lb ub : ℤ)
    (hl : (nlpTable b).lookup k = some (.int d lb ub)) (h1 : lb ≤ v) (h2 : v ≤ ub)
    (hf : inFile m k = false ∨ f = true) :
    ∃ m', setInteger (ensureNlp b) m k v f = some m' ∧ getInt m' k = some v ∧
      ∀ n, n ∉ ruleKeys → n ≠ k → (m' n).map Entry.o = (m n).map Entry.o := by
  obtain ⟨hw, hcons⟩ := history_facts h
  have hn := hw k
  rw [hl] at hn
  obtain ⟨⟨o, fl, g⟩, e1, e2, e3⟩ := hn
  cases o with
  | num => simp [SameReg] at e2
  | str => simp [SameReg] at e2
  | int old lb' ub' =>
  simp only [SameReg] at e2
  obtain ⟨rfl, rfl⟩ := e2
  have hk : k ∉ ruleKeys := by
    intro hk
    have : ∀ k ∈ ruleKeys, ∀ d lb ub, (nlpTable b).lookup k ≠ some (.int d lb ub) := by
      intro k hk d lb ub
      simp only [ruleKeys, List.mem_cons, List.not_mem_nil, or_false] at hk
      rcases hk with rfl | rfl | rfl | rfl | rfl | rfl | rfl | rfl | rfl | rfl | rfl | rfl | rfl | rfl | rfl <;>
        simp [nlpTable, List.lookup]
    exact this k hk d lb ub hl
  have hout : ¬ (v < lb ∨ v > ub) := by omega
  have hfl : (fl && !f) = false := by
    rcases hf with q | q
    · simp [inFile, e1] at q; simp [q]
    · simp [q]
  simp only [setInteger, e1, hout, hfl, Bool.false_eq_true, if_false]
  obtain ⟨m', q1, _, _, q4, _⟩ := ensureNlp_ok (b := b)
    (hw.upd (e' := ⟨.int v lb ub, fl || f, g⟩) e1 (by simp [SameReg]) ⟨h1, h2⟩)
  refine ⟨m', q1, ?_, fun n hn hnk => ?_⟩
  · have := q4 k hk
    simp only [Function.update_self, Option.map_some, Option.map_eq_some_iff] at this
    obtain ⟨e', a1, a2⟩ := this
    unfold getInt
    obtain ⟨o', f', g'⟩ := e'
    simp only at a2
    subst a2
    simp [a1]
  · rw [q4 n hn, Function.update_of_ne hnk]

/-- The same for strings, whose letters are lower-cased. -/
theorem C26_set_string (b : Build) (P : Parser) (file : List String) (calls : List Call) (m : Store)
    (h : nlpHistory b P file calls = some m) (k v : String) (f : Bool) (d : String) (r : List String)
    (hl : (nlpTable b).lookup k = some (.str d r)) (h1 : r = [] ∨ lower v ∈ r)
    (hf : inFile m k = false ∨ f = true) (hk : k ∉ ruleKeys) :
    ∃ m', setString (ensureNlp b) m k v f = some m' ∧ getStr m' k = some (lower v) ∧
      ∀ n, n ∉ ruleKeys → n ≠ k → (m' n).map Entry.o = (m n).map Entry.o := by
  obtain ⟨hw, hcons⟩ := history_facts h
  have hn := hw k
  rw [hl] at hn
  obtain ⟨⟨o, fl, g⟩, e1, e2, e3⟩ := hn
  cases o with
  | int => simp [SameReg] at e2
  | num => simp [SameReg] at e2
  | str old r' =>
  simp only [SameReg] at e2
  subst e2
  have hout : strOutside (lower v) r = false := by
    rcases h1 with q | q <;> simp [strOutside, q]
  have hfl : (fl && !f) = false := by
    rcases hf with q | q
    · simp [inFile, e1] at q; simp [q]
    · simp [q]
  simp only [setString, e1, hout, hfl, Bool.false_eq_true, if_false]
  obtain ⟨m', q1, _, _, q4, _⟩ := ensureNlp_ok (b := b)
    (hw.upd (e' := ⟨.str (lower v) r, fl || f, g⟩) e1 (by simp [SameReg]) h1)
  refine ⟨m', q1, ?_, fun n hn hnk => ?_⟩
  · rw [getStr_congr (q4 k hk)]
    simp [getStr]
  · rw [q4 n hn, Function.update_of_ne hnk]

/-- Setting one of the four tolerances gives it the larger of the value passed and `tolerance`. -/
theorem C26_set_tolerance (b : Build) (P : Parser) (file : List String) (calls : List Call) (m : Store)
    (h : nlpHistory b P file calls = some m) (k : String) (hk : k ∈ tolKeys) (v t : ℚ) (f : Bool)
    (d : Option ℚ) (lb ub : ℚ) (hl : (nlpTable b).lookup k = some (.num d lb ub)) (h1 : lb ≤ v) (h2 : v ≤ ub)
    (hf : inFile m k = false ∨ f = true) (ht : getNum m "tolerance" = some (some t)) :
    ∃ m', setNumeric (ensureNlp b) m k (some v) f = some m' ∧ getNum m' k = some (some (max v t)) := by
  obtain ⟨hw, hcons⟩ := history_facts h
  have hn := hw k
  rw [hl] at hn
  obtain ⟨⟨o, fl, g⟩, e1, e2, e3⟩ := hn
  cases o with
  | int => simp [SameReg] at e2
  | str => simp [SameReg] at e2
  | num old lb' ub' =>
  simp only [SameReg] at e2
  obtain ⟨rfl, rfl⟩ := e2
  have hout : outside (some v) lb ub = false := by simp [outside, ltD, h1, h2]
  have hfl : (fl && !f) = false := by
    rcases hf with q | q
    · simp [inFile, e1] at q; simp [q]
    · simp [q]
  simp only [setNumeric, e1, hout, hfl, Bool.false_eq_true, if_false]
  have hkt : k ≠ "tolerance" := by rintro rfl; exact absurd hk (by decide)
  have hkc : k ∉ chkOpts := by
    intro hc
    simp only [tolKeys, List.mem_cons, List.not_mem_nil, or_false] at hk
    rcases hk with rfl | rfl | rfl | rfl <;> exact absurd hc (by decide)
  let m1 : Store := Function.update m k (some ⟨.num (some v) lb ub, fl || f, g || !f⟩)
  have hv1 : getNum m1 k = some (some v) := by simp [m1, getNum]
  have ht1 : getNum m1 "tolerance" = some (some t) := by
    rw [← ht]; unfold getNum; simp only [m1]; rw [Function.update_of_ne (Ne.symm hkt)]
  have hu1 : userDefined m1 k = true := by simp [m1, userDefined]; cases f <;> simp
  obtain ⟨m', q1, _, q3, q4, q5, _, q6⟩ := ensureNlp_ok (b := b)
    (hw.upd (e' := ⟨.num (some v) lb ub, fl || f, g || !f⟩) e1 (by simp [SameReg]) ⟨h1, h2⟩)
  have ht' : getNum m' "tolerance" = some (some t) := by
    rw [getNum_congr (q4 "tolerance" (by decide))]; exact ht1
  have hu' : userDefined m' k = true := by rw [q5 k hkc]; exact hu1
  have hok : TolOk m' k := by
    simp only [tolKeys, List.mem_cons, List.not_mem_nil, or_false] at hk
    rcases hk with rfl | rfl | rfl | rfl
    exacts [q3.acc, q3.dual, q3.cons, q3.comp]
  refine ⟨m', q1, ?_⟩
  rcases q6 k hk with q | ⟨q, a, c, qa, qc, qlt⟩
  · rw [show Function.update m k (some ⟨.num (some v) lb ub, fl || f, g || !f⟩) = m1 from rfl, hv1] at q
    rw [q, max_eq_left (hok hu' v t q ht')]
  · rw [show Function.update m k (some ⟨.num (some v) lb ub, fl || f, g || !f⟩) = m1 from rfl] at q qa qc
    rw [hv1] at qa
    rw [ht1] at qc q
    obtain rfl := Option.some.inj (Option.some.inj qa)
    obtain rfl := Option.some.inj (Option.some.inj qc)
    rw [q, max_eq_right qlt.le]

example : (nlpHistory plain demoP ["tolerance 1e-6"] [.num "comp_tol" (some (1 / 10 ^ 12)) false]).map
    (fun m => getNum m "comp_tol") = some (some (some (1 / 10 ^ 6))) := by decide +kernel

/-! ### The options file takes precedence over run-time settings -/

/-- A run-time call on an option mentioned in the options file changes nothing. -/
theorem C26_file_blocks (b : Build) (P : Parser) (file : List String) (calls : List Call) (m : Store)
    (h : nlpHistory b P file calls = some m) (c : Call) (hc : c.isFile = false) (hf : inFile m c.name = true) :
    c.run (ensureNlp b) m = some m := by
  obtain ⟨hw, hcons⟩ := history_facts h
  have hid := ensureNlp_id hw hcons
  cases c with
  | num k v f =>
    simp only [Call.isFile] at hc; subst hc
    simp only [Call.name, inFile] at hf
    simp only [Call.run, setNumeric]
    split
    · rename_i hk; rw [hk] at hf; simp only at hf; simp [hf]
    · exact hid
  | int k v f =>
    simp only [Call.isFile] at hc; subst hc
    simp only [Call.name, inFile] at hf
    simp only [Call.run, setInteger]
    split
    · rename_i hk; rw [hk] at hf; simp only at hf; simp [hf]
    · exact hid
  | str k v f =>
    simp only [Call.isFile] at hc; subst hc
    simp only [Call.name, inFile] at hf
    simp only [Call.run, setString]
    split
    · rename_i hk; rw [hk] at hf; simp only at hf; simp [hf]
    · exact hid

/-- A line of the options file that names a registered option and has a readable value. -/
def Sets (t : List (String × Opt)) (P : Parser) (line k : String) : Prop :=
  ∃ value rest, tokens line = k :: value :: rest ∧ k.toList.head? ≠ some '#' ∧
    match t.lookup k with
    | some (.num ..) => (P.num value).isSome = true
    | some (.int ..) => (P.int value).isSome = true
    | some (.str ..) => True
    | none => False

theorem inFile_update {m : Store} {k n : String} {o : Opt} {f r fl : Bool} (h : m k = some ⟨o, fl, r⟩)
    {o' : Opt} {r' : Bool} :
    inFile (Function.update m k (some ⟨o', fl || f, r'⟩)) n = (inFile m n || (decide (n = k) && f)) := by
  by_cases hn : n = k
  · subst hn; simp [inFile, h]
  · unfold inFile; rw [Function.update_of_ne hn]; simp [hn]

/-- Setters never clear the file mark, and set it when called from the file. -/
theorem Call.run_inFile {m m' : Store} (hw : InRange true (nlpTable b) m) (c : Call) (n : String)
    (hn : n ∉ chkOpts ∨ b.axom = true) (h : c.run (ensureNlp b) m = some m') (hi : inFile m n = true) :
    inFile m' n = true := by
  have key : ∀ m0, InRange true (nlpTable b) m0 → ensureNlp b m0 = some m' → inFile m0 n = true →
      inFile m' n = true := by
    intro m0 w0 e0 i0
    obtain ⟨m'', q1, _, _, _, _, q6, _⟩ := ensureNlp_ok w0
    rw [e0] at q1
    obtain rfl := Option.some.inj q1
    rw [q6 n hn]; exact i0
  cases c with
  | num k v f =>
    simp only [Call.run, setNumeric] at h
    split at h
    · rename_i old lb ub fl r hk
      split at h
      · rw [← Option.some.inj h]; exact hi
      · refine key _ (hw.upd hk (by simp [SameReg]) ?_) h ?_
        · cases ho : outside v lb ub with
          | true => simpa using hw.valid hk
          | false => simpa using valid_num ho (fun _ => rfl)
        · rw [inFile_update hk, hi]; rfl
    · exact key _ hw h hi
  | int k v f =>
    simp only [Call.run, setInteger] at h
    split at h
    · rename_i old lb ub fl r hk
      split at h
      · rw [← Option.some.inj h]; exact hi
      · refine key _ (hw.upd hk (by simp [SameReg]) ?_) h ?_
        · by_cases ho : v < lb ∨ v > ub
          · simpa [ho] using hw.valid hk
          · simp only [ho, if_false, Valid]
            omega
        · rw [inFile_update hk, hi]; rfl
    · exact key _ hw h hi
  | str k v f =>
    simp only [Call.run, setString] at h
    split at h
    · rename_i old range fl r hk
      split at h
      · rw [← Option.some.inj h]; exact hi
      · refine key _ (hw.upd hk (by simp [SameReg]) ?_) h ?_
        · cases ho : strOutside (lower v) range with
          | true => simpa using hw.valid hk
          | false => simpa using valid_str ho
        · rw [inFile_update hk, hi]; rfl
    · exact key _ hw h hi

/-- A line either leaves the store alone or is a setter call with the file mark. -/
theorem loadLine_call (ens : Store → Option Store) (P : Parser) (m : Store) (line : String) :
    loadLine ens P m line = some m ∨ ∃ c : Call, c.isFile = true ∧ loadLine ens P m line = c.run ens m := by
  unfold loadLine
  split
  · rename_i name value rest _
    split
    · exact Or.inl rfl
    · split
      · split
        · rename_i v _
          exact Or.inr ⟨.num name v true, rfl, rfl⟩
        · exact Or.inl rfl
      · exact Or.inr ⟨.str name value true, rfl, rfl⟩
      · split
        · rename_i v _
          exact Or.inr ⟨.int name v true, rfl, rfl⟩
        · exact Or.inl rfl
      · exact Or.inl rfl
  · exact Or.inl rfl

/-- A setter call with the file mark on an option of its type sets the file mark. -/
theorem Call.run_marks {m m' : Store} (hw : InRange true (nlpTable b) m) (c : Call)
    (hn : c.name ∉ chkOpts ∨ b.axom = true) (hf : c.isFile = true) (hc : ¬ c.Unknown (nlpTable b))
    (h : c.run (ensureNlp b) m = some m') : inFile m' c.name = true := by
  have key : ∀ m0, InRange true (nlpTable b) m0 → ensureNlp b m0 = some m' → inFile m0 c.name = true →
      inFile m' c.name = true := by
    intro m0 w0 e0 i0
    obtain ⟨m'', q1, _, _, _, _, q6, _⟩ := ensureNlp_ok w0
    rw [e0] at q1
    obtain rfl := Option.some.inj q1
    rw [q6 _ hn]; exact i0
  have hw' := hw c.name
  cases c with
  | num k v f =>
    simp only [Call.isFile] at hf; subst hf
    simp only [Call.Unknown, not_forall, not_not] at hc
    obtain ⟨d, lb, ub, hl⟩ := hc
    simp only [Call.name] at hw' key ⊢
    rw [hl] at hw'
    obtain ⟨⟨o, fl, g⟩, e1, e2, e3⟩ := hw'
    cases o with
    | int => simp [SameReg] at e2
    | str => simp [SameReg] at e2
    | num old lb' ub' =>
    simp only [Call.run, setNumeric, e1, Bool.not_true, Bool.and_false, Bool.false_eq_true, if_false] at h
    refine key _ (hw.upd e1 (by simp [SameReg]) ?_) h ?_
    · cases ho : outside v lb' ub' with
      | true => simpa using hw.valid e1
      | false => simpa using valid_num ho (fun _ => rfl)
    · rw [inFile_update e1]; simp
  | int k v f =>
    simp only [Call.isFile] at hf; subst hf
    simp only [Call.Unknown, not_forall, not_not] at hc
    obtain ⟨d, lb, ub, hl⟩ := hc
    simp only [Call.name] at hw' key ⊢
    rw [hl] at hw'
    obtain ⟨⟨o, fl, g⟩, e1, e2, e3⟩ := hw'
    cases o with
    | num => simp [SameReg] at e2
    | str => simp [SameReg] at e2
    | int old lb' ub' =>
    simp only [Call.run, setInteger, e1, Bool.not_true, Bool.and_false, Bool.false_eq_true, if_false] at h
    refine key _ (hw.upd e1 (by simp [SameReg]) ?_) h ?_
    · by_cases ho : v < lb' ∨ v > ub'
      · simpa [ho] using hw.valid e1
      · simp only [ho, if_false, Valid]
        omega
    · rw [inFile_update e1]; simp
  | str k v f =>
    simp only [Call.isFile] at hf; subst hf
    simp only [Call.Unknown, not_forall, not_not] at hc
    obtain ⟨d, r, hl⟩ := hc
    simp only [Call.name] at hw' key ⊢
    rw [hl] at hw'
    obtain ⟨⟨o, fl, g⟩, e1, e2, e3⟩ := hw'
    cases o with
    | num => simp [SameReg] at e2
    | int => simp [SameReg] at e2
    | str old r' =>
    simp only [Call.run, setString, e1, Bool.not_true, Bool.and_false, Bool.false_eq_true, if_false] at h
    refine key _ (hw.upd e1 (by simp [SameReg]) ?_) h ?_
    · cases ho : strOutside (lower v) r' with
      | true => simpa using hw.valid e1
      | false => simpa using valid_str ho
    · rw [inFile_update e1]; simp

theorem loadLine_inFile {P : Parser} {m m' : Store} (hw : InRange true (nlpTable b) m) {line n : String}
    (hn : n ∉ chkOpts ∨ b.axom = true) (h : loadLine (ensureNlp b) P m line = some m')
    (hi : inFile m n = true ∨ Sets (nlpTable b) P line n) : inFile m' n = true := by
  rcases hi with hi | ⟨value, rest, h1, h2, h3⟩
  · rcases loadLine_call (ensureNlp b) P m line with q | ⟨c, _, q⟩
    · rw [q] at h; rw [← Option.some.inj h]; exact hi
    · rw [q] at h; exact Call.run_inFile hw c n hn h hi
  · have hwn := hw n
    unfold loadLine at h
    rw [h1] at h
    simp only [h2, if_false] at h
    cases hl : (nlpTable b).lookup n with
    | none => rw [hl] at h3; exact h3.elim
    | some o =>
      rw [hl] at h3 hwn
      obtain ⟨⟨o', fl, g⟩, e1, e2, e3⟩ := hwn
      cases o with
      | num d lb ub =>
        cases o' with
        | int => simp [SameReg] at e2
        | str => simp [SameReg] at e2
        | num old lb' ub' =>
        obtain ⟨v, hv⟩ := Option.isSome_iff_exists.1 h3
        simp only [e1, hv] at h
        exact Call.run_marks hw (.num n v true) hn rfl
          (by simp only [Call.Unknown]; intro q; exact q _ _ _ hl) h
      | int d lb ub =>
        cases o' with
        | num => simp [SameReg] at e2
        | str => simp [SameReg] at e2
        | int old lb' ub' =>
        obtain ⟨v, hv⟩ := Option.isSome_iff_exists.1 h3
        simp only [e1, hv] at h
        exact Call.run_marks hw (.int n v true) hn rfl
          (by simp only [Call.Unknown]; intro q; exact q _ _ _ hl) h
      | str d r =>
        cases o' with
        | num => simp [SameReg] at e2
        | int => simp [SameReg] at e2
        | str old r' =>
        simp only [e1] at h
        exact Call.run_marks hw (.str n value true) hn rfl
          (by simp only [Call.Unknown]; intro q; exact q _ _ hl) h

/-- "Options set in the options file overwrite options set at run time": once a line of the file names a
registered option with a readable value, no run-time call on this option, at any later point, has any
effect.  (In a build without Axom the checkpointing options are excepted: they do nothing there.) -/
theorem C26_file_wins (b : Build) (P : Parser) (file : List String) (calls : List Call) (m : Store)
    (h : nlpHistory b P file calls = some m) (k line : String) (hline : line ∈ file)
    (hk : Sets (nlpTable b) P line k) (hn : k ∉ chkOpts ∨ b.axom = true) (c : Call) (hc : c.name = k)
    (hf : c.isFile = false) : c.run (ensureNlp b) m = some m := by
  refine C26_file_blocks b P file calls m h c hf ?_
  rw [hc]
  -- the part of the file before and after the line
  have aux : ∀ (l : List String) (s s' : Store), InRange true (nlpTable b) s →
      l.foldlM (loadLine (ensureNlp b) P) s = some s' →
      (inFile s k = true ∨ line ∈ l) → InRange true (nlpTable b) s' ∧ inFile s' k = true := by
    intro l
    induction l with
    | nil =>
      intro s s' hs he hi
      rw [List.foldlM_nil] at he
      obtain rfl := Option.some.inj he
      exact ⟨hs, by simpa using hi⟩
    | cons a l ih =>
      intro s s' hs he hi
      obtain ⟨s1, h1, h2⟩ := loadLine_wf (adm_valid true) nlp_ensOk (P := P) (fun _ _ => rfl) hs a
      rw [List.foldlM_cons, h1] at he
      refine ih s1 s' h2 he ?_
      rcases hi with q | q
      · exact Or.inl (loadLine_inFile hs hn h1 (Or.inl q))
      · rcases List.mem_cons.1 q with q | q
        · subst q; exact Or.inl (loadLine_inFile hs hn h1 (Or.inr hk))
        · exact Or.inr q
  obtain ⟨m1, h1, h2⟩ := foldlM_inv (InRange true (nlpTable b)) (loadLine (ensureNlp b) P) file
    (fun s hs line _ => loadLine_wf (adm_valid true) nlp_ensOk (fun _ _ => rfl) hs line) _
    (register_wf (nlp_names b) (nlp_defaults b))
  obtain ⟨_, i1⟩ := aux file _ m1 (register_wf (nlp_names b) (nlp_defaults b)) h1 (Or.inr hline)
  obtain ⟨m2, g1, g2, _, _, _, g6, _⟩ := ensureNlp_ok h2
  have i2 : inFile m2 k = true := by rw [g6 k hn]; exact i1
  obtain ⟨m3, f1, f2, f3⟩ := foldlM_inv (fun s => InRange true (nlpTable b) s ∧ inFile s k = true)
    (Call.run (ensureNlp b)) calls (fun s hs c _ => by
      obtain ⟨s', q1, q2⟩ := Call.run_wf (adm_valid true) nlp_ensOk hs.1 c
        (by cases c <;> simp [Call.Proper])
      exact ⟨s', q1, q2, Call.run_inFile hs.1 c k hn q1 hs.2⟩) m2 ⟨g2, i2⟩
  have hrun : nlpHistory b P file calls = some m3 := by
    simp only [nlpHistory, history, construct, h1, Option.bind_eq_bind, Option.bind_some, g1]
    exact f1
  rw [h] at hrun
  rw [Option.some.inj hrun]; exact f3

example : Sets (nlpTable plain) demoP "  tolerance \t 1e-6 # tight" "tolerance" :=
  ⟨"1e-6", ["#", "tight"], by decide +kernel, by decide, (by decide +kernel : (demoP.num "1e-6").isSome = true)⟩

example : (nlpHistory plain demoP ["tolerance 1e-6"] [.num "tolerance" (some (1 / 10 ^ 3)) false]).map
    (fun m => getNum m "tolerance") = some (some (some (1 / 10 ^ 6))) := by decide +kernel

/-! ### The options of the primal decomposition solver -/

/-- Every option is in range, except that `accum_local` may still hold its default, which is not one of its
two registered values. -/
def PriDecOk (nan : Bool) (k : String) (o : Opt) : Prop :=
  Valid nan o ∨ (k = "accum_local" ∧ o = .str "false" ["yes", "no"])

theorem adm_priDec (nan : Bool) : Adm nan (PriDecOk nan) :=
  ⟨fun _ _ h => Or.inl h, fun _ _ _ _ h => by rcases h with h | ⟨_, h⟩; exacts [h, by simp at h]⟩

theorem priDec_ensOk : EnsOk (PriDecOk nan) (priDecTable b) ensurePriDec := by
  intro m h
  obtain ⟨m', h1, h2, _⟩ := tolRule_eff (adm_priDec nan) h (k := "acceptable_tolerance") (by decide) rfl rfl
    (le_refl _) (le_refl _)
  exact ⟨m', h1, h2.wf⟩

theorem priDec_register : WF (PriDecOk nan) (priDecTable b) (register (priDecTable b)) := by
  apply register_wf
  · have h : (priDecTable b).map Prod.fst = (priDecTable plain).map Prod.fst := rfl
    rw [h]; decide +kernel
  · obtain ⟨a1, a2, a3, a4, a5, a6, a7⟩ := b
    have h : ∀ a4 : Bool, (priDecTable ⟨false, false, false, a4, false, false, false⟩).all
        (fun p => validB p.2 || decide (p = ("accum_local", .str "false" ["yes", "no"]))) = true := by
      decide +kernel
    have h1 : (priDecTable ⟨a1, a2, a3, a4, a5, a6, a7⟩).all
        (fun p => validB p.2 || decide (p = ("accum_local", .str "false" ["yes", "no"]))) = true := h a4
    rw [List.all_eq_true] at h1
    intro p hp
    have := h1 p hp
    simp only [Bool.or_eq_true, decide_eq_true_eq] at this
    rcases this with q | q
    · exact Or.inl (valid_of_validB q)
    · subst q; exact Or.inr ⟨rfl, rfl⟩

/-- The same guarantee for the primal decomposition options, except for the default of `accum_local`. -/
theorem C26_pridec (b : Build) (P : Parser) (file : List String) (calls : List Call)
    (hP : ∀ s, P.num s ≠ some none) (hcalls : ∀ c ∈ calls, c.Proper false) :
    ∃ m, history (priDecTable b) ensurePriDec P file calls = some m ∧
      ∀ n, match (priDecTable b).lookup n with
        | none => m n = none
        | some o => ∃ e, m n = some e ∧ SameReg o e.o ∧
          (Valid false e.o ∨ (n = "accum_local" ∧ e.o = .str "false" ["yes", "no"])) := by
  have hP' : ∀ s, P.num s = some none → false = true := fun s h => absurd h (hP s)
  obtain ⟨m1, h1, h2⟩ := foldlM_inv (WF (PriDecOk false) (priDecTable b)) (loadLine ensurePriDec P) file
    (fun s hs line _ => loadLine_wf (adm_priDec false) priDec_ensOk hP' hs line) _ priDec_register
  obtain ⟨m2, h3, h4⟩ := priDec_ensOk m1 h2
  obtain ⟨m3, h5, h6⟩ := foldlM_inv (WF (PriDecOk false) (priDecTable b)) (Call.run ensurePriDec) calls
    (fun s hs c hc => Call.run_wf (adm_priDec false) priDec_ensOk hs c (hcalls c hc)) m2 h4
  refine ⟨m3, ?_, h6⟩
  simp only [history, construct, h1, h3, Option.bind_eq_bind, Option.bind_some]
  exact h5

/-- The default value of `accum_local` is not in its registered range. -/
theorem C26_pridec_default_false : ¬ InRange false (priDecTable plain) (register (priDecTable plain)) := by
  intro h
  obtain ⟨v, h1, h2⟩ := getStr_of_lookup h (k := "accum_local") rfl
  have : getStr (register (priDecTable plain)) "accum_local" = some "false" := by decide +kernel
  rw [this] at h1
  rw [← Option.some.inj h1] at h2
  exact absurd h2 (by decide)

end Hiop.Options
