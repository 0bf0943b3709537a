import Verif.Options.Log
import Verif.Options.PrintProps

/-!
# Messages about options are printed as written, unless they contain a per cent sign (C73)
-/

namespace Hiop.Options

variable {b : Build}

theorem render_cons {c : Char} (hc : c ≠ '%') (r : List Char) (as : List String) :
    render (c :: r) as = (render r as).map (c :: ·) := by
  rw [render] <;> (intros; simp_all)

theorem render_plain {s : List Char} (h : NoPct s) (as : List String) : render s as = some s := by
  induction s with
  | nil => simp [render]
  | cons c r ih =>
    simp only [NoPct, List.mem_cons, not_or] at h
    rw [render_cons (Ne.symm h.1), ih h.2]; rfl

theorem render_pct_none {c : Char} (hc : c ≠ '%') (r : List Char) : render ('%' :: c :: r) [] = none := by
  rw [render] <;> (intros; simp_all)

/-- The second formatting of a message, which has no arguments, is defined exactly when its per cent signs
come in pairs. -/
theorem C73_second_pass (s : List Char) : (render s []).isSome = true ↔ Paired s := by
  constructor
  · intro h
    induction hn : s.length using Nat.strong_induction_on generalizing s with
    | _ n ih =>
    rcases s with _ | ⟨c, r⟩
    · exact Paired.nil
    · by_cases hc : c = '%'
      · subst hc
        rcases r with _ | ⟨d, r⟩
        · simp [render] at h
        · by_cases hd : d = '%'
          · subst hd
            have : render ('%' :: '%' :: r) [] = (render r []).map ('%' :: ·) := by rw [render]
            rw [this, Option.isSome_map] at h
            exact Paired.pair r (ih r.length (by simp at hn; omega) r h rfl)
          · rw [render_pct_none hd] at h; simp at h
      · rw [render_cons hc, Option.isSome_map] at h
        exact Paired.char c r hc (ih r.length (by simp at hn; omega) r h rfl)
  · intro h
    induction h with
    | nil => simp [render]
    | char c r hc _ ih => rw [render_cons hc, Option.isSome_map]; exact ih
    | pair r _ ih =>
      have : render ('%' :: '%' :: r) [] = (render r []).map ('%' :: ·) := by rw [render]
      rw [this, Option.isSome_map]; exact ih

example : Paired "100%% sure".toList := by
  rw [← C73_second_pass]; decide
example : ¬ Paired "a%s".toList := by
  rw [← C73_second_pass]; decide

theorem noPct_take {s : List Char} (h : NoPct s) (n : ℕ) : NoPct (s.take n) :=
  fun hm => h (List.mem_of_mem_take hm)

/-- A message whose text has no per cent sign: before the solver has a logger, the first 1023 characters of
the text go to the standard error stream, whatever the verbosity level and on every rank. -/
theorem C73_text_early_partial (v : ℤ) (fmt : List Char) (as : List String) (t : List Char)
    (h : render fmt as = some t) (ht : NoPct t) :
    logPrintf none v fmt as = some (.stderr (errPrefix v ++ t.take 1023)) := by
  simp only [logPrintf, vsn, h, Option.map_some, printfError, render_plain (noPct_take ht _)]
  simp

/-- The same once the solver has its logger: the text is printed by the master rank exactly when its level is
not above the verbosity level. -/
theorem C73_text_partial (L : Logger) (v : ℤ) (fmt : List Char) (as : List String) (t : List Char)
    (h : render fmt as = some t) (ht : NoPct t) :
    logPrintf (some L) v fmt as = some (if L.master = true ∧ v ≤ L.verbosity
      then .stdout (label v ++ t.take 1023) else .silent) := by
  simp only [logPrintf, vsn, h, Option.map_some, Logger.printf, render_plain (noPct_take ht _)]
  by_cases hm : L.master = true
  · by_cases hv : v ≤ L.verbosity
    · simp [hm, hv, not_lt.2 hv]
    · simp [hm, hv, not_le.1 hv]
  · simp [hm]

/-- Other ranks, and messages above the verbosity level: nothing is printed and nothing can go wrong,
whatever the text. -/
theorem C73_filtered (L : Logger) (v : ℤ) (fmt : List Char) (as : List String) (t : List Char)
    (h : render fmt as = some t) (hL : L.master = false ∨ L.verbosity < v) :
    logPrintf (some L) v fmt as = some .silent := by
  simp only [logPrintf, vsn, h, Option.map_some, Logger.printf]
  rcases hL with hL | hL
  · simp [hL]
  · by_cases hm : L.master = true <;> simp [hm, hL]

/-- In general a message that is not filtered is printed without undefined behaviour exactly when the per
cent signs among the first 1023 characters of its text come in pairs. -/
theorem C73_defined_exact (v : ℤ) (fmt : List Char) (as : List String) (t : List Char)
    (h : render fmt as = some t) : (logPrintf none v fmt as).isSome = true ↔ Paired (t.take 1023) := by
  simp only [logPrintf, vsn, h, Option.map_some, printfError, Option.isSome_map]
  exact C73_second_pass _

/-! ### Reading an options file -/

/-- Decidable: the format has exactly `n` conversions and no `%%`. -/
def wellFmt : List Char → ℕ → Bool
  | [], n => n == 0
  | '%' :: c :: r, n => (c == 's' || c == 'd' || c == 'g') && (match n with
    | 0 => false
    | n + 1 => wellFmt r n)
  | '%' :: [], _ => false
  | _ :: r, n => wellFmt r n

theorem wellFmt_cons {c : Char} (hc : c ≠ '%') (r : List Char) (n : ℕ) : wellFmt (c :: r) n = wellFmt r n := by
  rw [wellFmt] <;> (intros; simp_all)

theorem render_wellFmt (fmt : List Char) (as : List String) (hf : wellFmt fmt as.length = true)
    (ha : ∀ a ∈ as, NoPct a.toList) : ∃ t, render fmt as = some t ∧ NoPct t := by
  induction hn : fmt.length using Nat.strong_induction_on generalizing fmt as with
  | _ n ih =>
  rcases fmt with _ | ⟨c, r⟩
  · exact ⟨[], by simp [render], by simp [NoPct]⟩
  · by_cases hc : c = '%'
    · subst hc
      rcases r with _ | ⟨d, r⟩
      · simp [wellFmt] at hf
      · rcases as with _ | ⟨a, as⟩
        · simp [wellFmt] at hf
        · simp only [wellFmt, List.length_cons, Bool.and_eq_true, Bool.or_eq_true, beq_iff_eq] at hf
          obtain ⟨hd, hf⟩ := hf
          have hd' : d = 's' ∨ d = 'd' ∨ d = 'g' := by tauto
          have hdp : d ≠ '%' := by rcases hd' with rfl | rfl | rfl <;> decide
          obtain ⟨t, h1, h2⟩ := ih r.length (by simp at hn; omega) r as hf
            (fun x hx => ha x (List.mem_cons_of_mem _ hx)) rfl
          have : render ('%' :: d :: r) (a :: as) =
              if d = 's' ∨ d = 'd' ∨ d = 'g' then (render r as).map (a.toList ++ ·) else none := by
            rw [render] <;> (intros; simp_all)
          refine ⟨a.toList ++ t, by rw [this, if_pos hd', h1]; rfl, ?_⟩
          simp only [NoPct, List.mem_append, not_or]
          exact ⟨ha a List.mem_cons_self, h2⟩
    · rw [wellFmt_cons hc] at hf
      obtain ⟨t, h1, h2⟩ := ih r.length (by simp at hn; omega) r as hf ha rfl
      refine ⟨c :: t, by rw [render_cons hc, h1]; rfl, ?_⟩
      simp only [NoPct, List.mem_cons, not_or]
      exact ⟨Ne.symm hc, h2⟩

theorem splitOnP_chars (p : Char → Bool) : ∀ (l w : List Char), w ∈ l.splitOnP p → ∀ c ∈ w, c ∈ l := by
  intro l
  induction l with
  | nil => intro w hw c hc; simp at hw; subst hw; simp at hc
  | cons x xs ih =>
    intro w hw c hc
    rw [List.splitOnP_cons] at hw
    split at hw
    · rcases List.mem_cons.1 hw with rfl | hw
      · simp at hc
      · exact List.mem_cons_of_mem _ (ih w hw c hc)
    · rcases hs : xs.splitOnP p with _ | ⟨y, ys⟩
      · rw [hs] at hw; simp at hw
      · rw [hs] at hw
        simp only [List.modifyHead_cons, List.mem_cons] at hw
        rcases hw with rfl | hw
        · rcases List.mem_cons.1 hc with rfl | hc
          · exact List.mem_cons_self
          · exact List.mem_cons_of_mem _ (ih y (by rw [hs]; simp) c hc)
        · exact List.mem_cons_of_mem _ (ih w (by rw [hs]; simp [hw]) c hc)

/-- The words of a line consist of characters of the line. -/
theorem token_chars {line w : String} (h : w ∈ tokens line) (hl : NoPct line.toList) : NoPct w.toList := by
  unfold tokens at h
  simp only [List.mem_map, List.mem_filter] at h
  obtain ⟨x, ⟨hx, _⟩, rfl⟩ := h
  rw [String.toList_ofList]
  exact fun hm => hl (splitOnP_chars _ _ x hx _ hm)

theorem ltrim_chars {line : String} (hl : NoPct line.toList) : NoPct (ltrim line).toList := by
  unfold ltrim
  rw [String.toList_ofList]
  exact fun hm => hl ((List.dropWhile_suffix _).subset hm)

theorem showRange_chars {r : List String} (h : ∀ v ∈ r, NoPct v.toList) : NoPct (showRange r).toList := by
  unfold showRange
  have : ∀ (r : List String) (s : String), NoPct s.toList → (∀ v ∈ r, NoPct v.toList) →
      NoPct (r.foldl (fun s c => s ++ c ++ " ") s).toList := by
    intro r
    induction r with
    | nil => exact fun s hs _ => hs
    | cons a r ih =>
      intro s hs hr
      rw [List.foldl_cons]
      refine ih _ ?_ (fun v hv => hr v (List.mem_cons_of_mem _ hv))
      have := hr a List.mem_cons_self
      simp only [NoPct, String.toList_append, List.mem_append, not_or] at this hs ⊢
      exact ⟨⟨hs, this⟩, by decide⟩
  exact this r " " (by unfold NoPct; decide) h

/-- The registered choices contain no per cent sign. -/
theorem choices_noPct {k d : String} {r : List String} (hl : (nlpTable b).lookup k = some (.str d r)) :
    ∀ v ∈ r, NoPct v.toList := by
  have hm := mem_of_lookup hl
  obtain ⟨a1, a2, a3, a4, a5, a6, a7⟩ := b
  have h : ∀ a1 a2 a3 a4 : Bool, (nlpTable ⟨a1, a2, a3, a4, false, false, false⟩).all (fun p => match p.2 with
      | .str _ r => r.all (fun v => !v.toList.contains '%')
      | _ => true) = true := by decide +kernel
  have h1 : (nlpTable ⟨a1, a2, a3, a4, a5, a6, a7⟩).all (fun p => match p.2 with
      | .str _ r => r.all (fun v => !v.toList.contains '%')
      | _ => true) = true := h a1 a2 a3 a4
  rw [List.all_eq_true] at h1
  have := h1 _ hm
  simp only [List.all_eq_true, Bool.not_eq_true', List.contains_eq_mem, decide_eq_false_iff_not] at this
  exact this

/-- All messages of a setter call are well formed and contain no per cent sign when its name and its string
value contain none. -/
theorem callMsgs_ok {G : Option ℚ → String} {I : ℤ → String} (hG : ∀ v, NoPct (G v).toList)
    (hI : ∀ v, NoPct (I v).toList) {m : Store} (hw : InRange true (nlpTable b) m) (c : Call)
    (hn : NoPct c.name.toList) (hv : ∀ k v f, c = .str k v f → NoPct v.toList) :
    ∀ msg ∈ callMsgs G I m c, ∃ t, render msg.1.toList msg.2 = some t ∧ NoPct t := by
  intro msg hmsg
  cases c with
  | num k v f =>
    simp only [Call.name] at hn
    simp only [callMsgs] at hmsg
    split at hmsg
    · split at hmsg
      · simp only [List.mem_singleton] at hmsg; subst hmsg
        exact render_wellFmt _ _ (by simp only [List.length_cons, List.length_nil]; decide +kernel) (by simp [hG, hn])
      · split at hmsg
        · simp only [List.mem_singleton] at hmsg; subst hmsg
          exact render_wellFmt _ _ (by simp only [List.length_cons, List.length_nil]; decide +kernel) (by simp [hG, hn])
        · simp at hmsg
    · simp only [List.mem_singleton] at hmsg; subst hmsg
      exact render_wellFmt _ _ (by simp only [List.length_cons, List.length_nil]; decide +kernel) (by simp [hn])
    · simp only [List.mem_singleton] at hmsg; subst hmsg
      exact render_wellFmt _ _ (by simp only [List.length_cons, List.length_nil]; decide +kernel) (by simp [hG, hn])
  | int k v f =>
    simp only [Call.name] at hn
    simp only [callMsgs] at hmsg
    split at hmsg
    · split at hmsg
      · simp only [List.mem_singleton] at hmsg; subst hmsg
        exact render_wellFmt _ _ (by simp only [List.length_cons, List.length_nil]; decide +kernel) (by simp [hI, hn])
      · split at hmsg
        · simp only [List.mem_singleton] at hmsg; subst hmsg
          exact render_wellFmt _ _ (by simp only [List.length_cons, List.length_nil]; decide +kernel) (by simp [hI, hn])
        · simp at hmsg
    · simp only [List.mem_singleton] at hmsg; subst hmsg
      exact render_wellFmt _ _ (by simp only [List.length_cons, List.length_nil]; decide +kernel) (by simp [hn])
    · simp only [List.mem_singleton] at hmsg; subst hmsg
      exact render_wellFmt _ _ (by simp only [List.length_cons, List.length_nil]; decide +kernel) (by simp [hI, hn])
  | str k v f =>
    simp only [Call.name] at hn
    have hv' := hv k v f rfl
    simp only [callMsgs] at hmsg
    split at hmsg
    · rename_i old r inF atR hk
      split at hmsg
      · simp only [List.mem_singleton] at hmsg; subst hmsg
        exact render_wellFmt _ _ (by simp only [List.length_cons, List.length_nil]; decide +kernel) (by simp [hv', hn])
      · split at hmsg
        · rename_i hout
          simp only [List.mem_singleton] at hmsg; subst hmsg
          obtain ⟨o, hl, hs⟩ := lookup_of_entry hw hk
          cases o with
          | num => simp [SameReg] at hs
          | int => simp [SameReg] at hs
          | str d r' =>
          simp only [SameReg] at hs
          subst hs
          have hc := choices_noPct hl
          have hold : NoPct old.toList := by
            have hval : Valid true (.str old r') := hw.valid hk
            simp only [Valid] at hval
            rcases hval with q | q
            · simp [strOutside, q] at hout
            · exact hc old q
          exact render_wellFmt _ _ (by simp only [List.length_cons, List.length_nil]; decide +kernel) (by simp [hv', hn, hold, showRange_chars hc])
        · simp at hmsg
    · simp only [List.mem_singleton] at hmsg; subst hmsg
      exact render_wellFmt _ _ (by simp only [List.length_cons, List.length_nil]; decide +kernel) (by simp [hn])
    · simp only [List.mem_singleton] at hmsg; subst hmsg
      exact render_wellFmt _ _ (by simp only [List.length_cons, List.length_nil]; decide +kernel) (by simp [hv', hn])

/-- Every message about a line of an options file that contains no per cent sign is printed as written (cut
after 1023 characters), on every store a user can reach. -/
theorem C73_line_partial (b : Build) (P : Parser) (file : List String) (calls : List Call) (m : Store)
    (h : nlpHistory b P file calls = some m) (G : Option ℚ → String) (I : ℤ → String)
    (hG : ∀ v, NoPct (G v).toList) (hI : ∀ v, NoPct (I v).toList) (line : String) (hl : NoPct line.toList) :
    ∀ msg ∈ lineMsgs G I P m line, ∃ t, render msg.1.toList msg.2 = some t ∧
      logPrintf none hovWarning msg.1.toList msg.2 = some (.stderr ("WARNING: ".toList ++ t.take 1023)) := by
  have hw := (history_facts h).1
  have key : ∀ msg ∈ lineMsgs G I P m line, ∃ t, render msg.1.toList msg.2 = some t ∧ NoPct t := by
    intro msg hmsg
    unfold lineMsgs at hmsg
    split at hmsg
    · simp at hmsg
    · split at hmsg
      · simp at hmsg
      · simp only [List.mem_singleton] at hmsg; subst hmsg
        exact render_wellFmt _ _ (by simp only [List.length_cons, List.length_nil]; decide +kernel) (by simp [ltrim_chars hl])
    · rename_i name value rest ht
      have hn : NoPct name.toList := token_chars (by rw [ht]; simp) hl
      have hv : NoPct value.toList := token_chars (by rw [ht]; simp) hl
      split at hmsg
      · simp at hmsg
      · split at hmsg
        · split at hmsg
          · exact callMsgs_ok hG hI hw _ (by exact hn) (by simp) msg hmsg
          · simp only [List.mem_singleton] at hmsg; subst hmsg
            exact render_wellFmt _ _ (by simp only [List.length_cons, List.length_nil]; decide +kernel) (by simp [hG, hn, hv])
        · exact callMsgs_ok hG hI hw _ (by exact hn) (by rintro k v f ⟨⟩; exact hv) msg hmsg
        · split at hmsg
          · exact callMsgs_ok hG hI hw _ (by exact hn) (by simp) msg hmsg
          · simp only [List.mem_singleton] at hmsg; subst hmsg
            exact render_wellFmt _ _ (by simp only [List.length_cons, List.length_nil]; decide +kernel) (by simp [hI, hn, hv])
        · simp only [List.mem_singleton] at hmsg; subst hmsg
          exact render_wellFmt _ _ (by simp only [List.length_cons, List.length_nil]; decide +kernel) (by simp [hn, hv])
  intro msg hmsg
  obtain ⟨t, h1, h2⟩ := key msg hmsg
  exact ⟨t, h1, C73_text_early_partial hovWarning _ _ t h1 h2⟩

/-- The same for the setters, with the solver's logger in place. -/
theorem C73_call_partial (b : Build) (P : Parser) (file : List String) (calls : List Call) (m : Store)
    (h : nlpHistory b P file calls = some m) (G : Option ℚ → String) (I : ℤ → String)
    (hG : ∀ v, NoPct (G v).toList) (hI : ∀ v, NoPct (I v).toList) (c : Call) (hn : NoPct c.name.toList)
    (hv : ∀ k v f, c = .str k v f → NoPct v.toList) (L : Logger) :
    ∀ msg ∈ callMsgs G I m c, ∃ t, render msg.1.toList msg.2 = some t ∧
      logPrintf (some L) hovWarning msg.1.toList msg.2 = some (if L.master = true ∧ 1 ≤ L.verbosity
        then .stdout ("[Warning] ".toList ++ t.take 1023) else .silent) := by
  intro msg hmsg
  obtain ⟨t, h1, h2⟩ := callMsgs_ok hG hI (history_facts h).1 c hn hv msg hmsg
  exact ⟨t, h1, C73_text_partial L hovWarning _ _ t h1 h2⟩

/-- A per cent sign in an options file can be undefined behaviour: the line `foo %s` names no registered
option, and its warning is used as a format without arguments. -/
theorem C73_line_refuted : ∃ (msg : Msg), msg ∈ lineMsgs (fun _ => "") (fun _ => "") demoP
      (register (nlpTable plain)) "foo %s" ∧ logPrintf none hovWarning msg.1.toList msg.2 = none :=
  ⟨("Hiop does not understand option '%s' specified in the option file and will ignore its value '%s'.\n",
    ["foo", "%s"]), by decide +kernel, by decide +kernel⟩

/-- The same at run time: a value that is not one of the choices of a string option. -/
theorem C73_call_refuted : ∃ (msg : Msg), msg ∈ callMsgs (fun _ => "") (fun _ => "")
      (register (nlpTable plain)) (.str "Hessian" "%n" false) ∧
      logPrintf (some ⟨true, 3⟩) hovWarning msg.1.toList msg.2 = none :=
  ⟨("Hiop: value '%s' for option '%s' must be one of [%s]. Default value '%s' will be used.\n",
    ["%n", "Hessian", " quasinewton_approx analytical_exact ", "quasinewton_approx"]),
    by decide +kernel, by decide +kernel⟩

/-- A non-trivial case of the theorems: the message about an unknown option. -/
example : lineMsgs (fun _ => "") (fun _ => "") demoP (register (nlpTable plain)) "foo 3" =
      [("Hiop does not understand option '%s' specified in the option file and will ignore its value '%s'.\n",
        ["foo", "3"])] ∧
    logPrintf none hovWarning
      "Hiop does not understand option '%s' specified in the option file and will ignore its value '%s'.\n".toList
      ["foo", "3"] = some (.stderr
      "WARNING: Hiop does not understand option 'foo' specified in the option file and will ignore its value '3'.\n".toList) := by
  constructor <;> decide +kernel

end Hiop.Options
