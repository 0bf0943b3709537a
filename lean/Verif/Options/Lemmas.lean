import Verif.Options.Spec

/-!
# Well-formed option stores are preserved by registration, setters, files and consistency rules
-/

namespace Hiop.Options

theorem SameReg.refl (o : Opt) : SameReg o o := by cases o <;> simp [SameReg]

variable {V : String → Opt → Prop} {nan : Bool} {t : List (String × Opt)} {m : Store}

theorem foldl_register (l : List (String × Opt)) (m : Store) (hl : (l.map Prod.fst).Nodup) (n : String) :
    (l.foldl (fun (m : Store) p => Function.update m p.1 (some ⟨p.2, false, false⟩)) m) n =
      match l.lookup n with
      | some o => some ⟨o, false, false⟩
      | none => m n := by
  induction l generalizing m with
  | nil => rfl
  | cons p l ih =>
    obtain ⟨k, o⟩ := p
    simp only [List.map_cons, List.nodup_cons] at hl
    rw [List.foldl_cons, ih _ hl.2, List.lookup_cons]
    by_cases h : n = k
    · subst h
      have : l.lookup n = none := by
        rw [List.lookup_eq_none_iff]
        intro p hp
        simp only [bne_iff_ne, ne_eq]
        intro h
        exact hl.1 (List.mem_map.2 ⟨p, hp, h.symm⟩)
      simp [this]
    · have hb : (n == k) = false := by simpa using h
      simp [hb, Function.update_of_ne h]

theorem mem_of_lookup {l : List (String × Opt)} {n : String} {o : Opt} (h : l.lookup n = some o) :
    (n, o) ∈ l := by
  induction l with
  | nil => simp at h
  | cons p l ih =>
    rw [List.lookup_cons] at h
    by_cases hb : n = p.1
    · simp [hb] at h
      subst h; subst hb; simp
    · have hb' : (n == p.1) = false := by simpa using hb
      rw [hb'] at h
      exact List.mem_cons_of_mem _ (ih h)

/-- A validity predicate that admits every value in range, and for numbers nothing else. -/
structure Adm (nan : Bool) (V : String → Opt → Prop) : Prop where
  of_valid : ∀ k o, Valid nan o → V k o
  num : ∀ k v lb ub, V k (.num v lb ub) → Valid nan (.num v lb ub)

theorem adm_valid (nan : Bool) : Adm nan (fun _ => Valid nan) := ⟨fun _ _ h => h, fun _ _ _ _ h => h⟩

/-- The freshly registered store is well formed when names are distinct and defaults are in range. -/
theorem register_wf (hn : (t.map Prod.fst).Nodup) (hv : ∀ p ∈ t, V p.1 p.2) : WF V t (register t) := by
  intro n
  have h := foldl_register t (fun _ => none) hn n
  unfold register
  rw [h]
  cases hl : t.lookup n with
  | none => rfl
  | some o => exact ⟨_, rfl, SameReg.refl o, hv _ (mem_of_lookup hl)⟩

theorem WF.upd (h : WF V t m) {k : String} {e e' : Entry} (hk : m k = some e) (hs : SameReg e.o e'.o)
    (hv : V k e'.o) : WF V t (Function.update m k (some e')) := by
  intro n
  have hn := h n
  by_cases hnk : n = k
  · subst hnk
    cases hl : t.lookup n with
    | none => rw [hl] at hn; simp [hk] at hn
    | some o =>
      rw [hl] at hn
      obtain ⟨e0, h1, h2, _⟩ := hn
      rw [hk] at h1
      obtain rfl := Option.some.inj h1
      refine ⟨e', by simp, ?_, hv⟩
      revert h2 hs
      cases o <;> cases e.o <;> cases e'.o <;> simp +contextual [SameReg]
  · rw [Function.update_of_ne hnk]; exact hn

theorem WF.valid (h : WF V t m) {k : String} {e : Entry} (hk : m k = some e) : V k e.o := by
  have hn := h k
  cases hl : t.lookup k with
  | none => rw [hl] at hn; simp [hk] at hn
  | some o =>
    rw [hl] at hn
    obtain ⟨e0, h1, _, h2⟩ := hn
    rw [hk] at h1
    obtain rfl := Option.some.inj h1
    exact h2

theorem valid_num {v : Option ℚ} {lb ub : ℚ} (h : outside v lb ub = false) (hn : v = none → nan = true) :
    Valid nan (.num v lb ub) := by
  cases v with
  | none => exact hn rfl
  | some v =>
    simp only [outside, ltD, Bool.or_eq_false_iff, decide_eq_false_iff_not, not_lt] at h
    exact h

theorem valid_str {v : String} {r : List String} (h : strOutside v r = false) : Valid nan (.str v r) := by
  simp only [strOutside, Bool.and_eq_false_iff, Bool.not_eq_false', List.contains_eq_mem,
    decide_eq_true_eq, List.isEmpty_iff] at h
  exact h.symm

/-- What a consistency pass must do for the setters to keep stores well formed. -/
def EnsOk (V : String → Opt → Prop) (t : List (String × Opt)) (ens : Store → Option Store) : Prop :=
  ∀ m, WF V t m → ∃ m', ens m = some m' ∧ WF V t m'

variable {ens : Store → Option Store}

theorem setNumeric_wf (hA : Adm nan V) (he : EnsOk V t ens) (h : WF V t m) (k : String) (v : Option ℚ) (f : Bool)
    (hv : v = none → nan = true) : ∃ m', setNumeric ens m k v f = some m' ∧ WF V t m' := by
  unfold setNumeric
  split
  · rename_i old lb ub fl r hk
    split
    · exact ⟨m, rfl, h⟩
    · apply he
      apply h.upd hk (by simp [SameReg])
      cases ho : outside v lb ub with
      | true => simpa using h.valid hk
      | false => simpa using hA.of_valid _ _ (valid_num ho hv)
  · exact he m h

theorem setInteger_wf (hA : Adm nan V) (he : EnsOk V t ens) (h : WF V t m) (k : String) (v : ℤ) (f : Bool) :
    ∃ m', setInteger ens m k v f = some m' ∧ WF V t m' := by
  unfold setInteger
  split
  · rename_i old lb ub fl r hk
    split
    · exact ⟨m, rfl, h⟩
    · apply he
      apply h.upd hk (by simp [SameReg])
      by_cases ho : v < lb ∨ v > ub
      · simpa [ho] using h.valid hk
      · apply hA.of_valid
        simp only [ho, if_false, Valid]
        omega
  · exact he m h

theorem setString_wf (hA : Adm nan V) (he : EnsOk V t ens) (h : WF V t m) (k : String) (v : String) (f : Bool) :
    ∃ m', setString ens m k v f = some m' ∧ WF V t m' := by
  unfold setString
  split
  · rename_i old range fl r hk
    split
    · exact ⟨m, rfl, h⟩
    · apply he
      apply h.upd hk (by simp [SameReg])
      cases ho : strOutside (lower v) range with
      | true => simpa using h.valid hk
      | false => simpa using hA.of_valid _ _ (valid_str ho)
  · exact he m h

theorem loadLine_wf (hA : Adm nan V) (he : EnsOk V t ens) {P : Parser} (hP : ∀ s, P.num s = some none → nan = true)
    (h : WF V t m) (line : String) : ∃ m', loadLine ens P m line = some m' ∧ WF V t m' := by
  unfold loadLine
  split
  · split
    · exact ⟨m, rfl, h⟩
    · split
      · split
        · rename_i v hv
          apply setNumeric_wf hA he h
          rintro rfl
          exact hP _ hv
        · exact ⟨m, rfl, h⟩
      · exact setString_wf hA he h _ _ _
      · split
        · exact setInteger_wf hA he h _ _ _
        · exact ⟨m, rfl, h⟩
      · exact ⟨m, rfl, h⟩
  · exact ⟨m, rfl, h⟩

/-- Folding a partial step that preserves an invariant and never fails on it. -/
theorem foldlM_inv {α σ : Type} (I : σ → Prop) (step : σ → α → Option σ) (l : List α)
    (hs : ∀ s, I s → ∀ a ∈ l, ∃ s', step s a = some s' ∧ I s') :
    ∀ s, I s → ∃ s', l.foldlM step s = some s' ∧ I s' := by
  induction l with
  | nil => intro s h; exact ⟨s, rfl, h⟩
  | cons a l ih =>
    intro s h
    obtain ⟨s', h1, h2⟩ := hs s h a (by simp)
    obtain ⟨s'', h3, h4⟩ := ih (fun s h b hb => hs s h b (by simp [hb])) s' h2
    exact ⟨s'', by rw [List.foldlM_cons, h1]; exact h3, h4⟩

theorem Call.run_wf (hA : Adm nan V) (he : EnsOk V t ens) (h : WF V t m) (c : Call) (hc : c.Proper nan) :
    ∃ m', c.run ens m = some m' ∧ WF V t m' := by
  cases c with
  | num k v f => exact setNumeric_wf hA he h k v f hc
  | int k v f => exact setInteger_wf hA he h k v f
  | str k v f => exact setString_wf hA he h k v f

/-! ### Effect of the rules -/

/-- `m'` differs from `m` at most in the value of option `key`. -/
structure Eff (V : String → Opt → Prop) (t : List (String × Opt)) (key : String) (m m' : Store) : Prop where
  wf : WF V t m'
  frame : ∀ k, k ≠ key → m' k = m k
  flags : ∀ k, (m' k).map (fun e => (e.inFile, e.atRun)) = (m k).map (fun e => (e.inFile, e.atRun))

theorem Eff.str {key : String} {m m' : Store} (h : Eff V t key m m') (k : String) (hk : k ≠ key) :
    getStr m' k = getStr m k := by
  unfold getStr; rw [h.frame k hk]

theorem Eff.num {key : String} {m m' : Store} (h : Eff V t key m m') (k : String) (hk : k ≠ key) :
    getNum m' k = getNum m k := by
  unfold getNum; rw [h.frame k hk]

theorem Eff.user {key : String} {m m' : Store} (h : Eff V t key m m') (k : String) :
    userDefined m' k = userDefined m k := by
  have := h.flags k
  unfold userDefined
  rcases h1 : m k with _ | ⟨o, f, g⟩ <;> rcases h2 : m' k with _ | ⟨o', f', g'⟩ <;> simp_all

theorem Eff.file {key : String} {m m' : Store} (h : Eff V t key m m') (k : String) :
    inFile m' k = inFile m k := by
  have := h.flags k
  unfold inFile
  rcases h1 : m k with _ | ⟨o, f, g⟩ <;> rcases h2 : m' k with _ | ⟨o', f', g'⟩ <;> simp_all

theorem Eff.refl (h : WF V t m) (key : String) : Eff V t key m m := ⟨h, fun _ _ => rfl, fun _ => rfl⟩

theorem Eff.trans {key : String} {m m' m'' : Store} (h : Eff V t key m m') (h' : Eff V t key m' m'') :
    Eff V t key m m'' :=
  ⟨h'.wf, fun k hk => (h'.frame k hk).trans (h.frame k hk), fun k => (h'.flags k).trans (h.flags k)⟩

theorem getStr_of_lookup (h : InRange nan t m) {k d : String} {r : List String}
    (hl : t.lookup k = some (.str d r)) : ∃ v, getStr m k = some v ∧ (r = [] ∨ v ∈ r) := by
  have hk := h k
  rw [hl] at hk
  obtain ⟨⟨o, f, g⟩, h1, h2, h3⟩ := hk
  cases o with
  | str v r' =>
    simp only [SameReg] at h2
    subst h2
    exact ⟨v, by simp [getStr, h1], h3⟩
  | num => simp [SameReg] at h2
  | int => simp [SameReg] at h2

theorem getNum_of_lookup (hA : Adm nan V) (h : WF V t m) {k : String} {d : Option ℚ} {lb ub : ℚ}
    (hl : t.lookup k = some (.num d lb ub)) :
    ∃ v, getNum m k = some v ∧ Valid nan (.num v lb ub) := by
  have hk := h k
  rw [hl] at hk
  obtain ⟨⟨o, f, g⟩, h1, h2, h3⟩ := hk
  cases o with
  | num v lb' ub' =>
    simp only [SameReg] at h2
    obtain ⟨rfl, rfl⟩ := h2
    exact ⟨v, by simp [getNum, h1], hA.num _ _ _ _ h3⟩
  | str => simp [SameReg] at h2
  | int => simp [SameReg] at h2

theorem setValStr_eff (hA : Adm nan V) (h : WF V t m) {k d v : String} {r : List String}
    (hl : t.lookup k = some (.str d r)) (hlow : lower v = v) (hv : v ∈ r) :
    ∃ m', setValStr m k v = some m' ∧ Eff V t k m m' ∧ getStr m' k = some v := by
  have hk := h k
  rw [hl] at hk
  obtain ⟨⟨o, f, g⟩, h1, h2, h3⟩ := hk
  cases o with
  | str w r' =>
    simp only [SameReg] at h2
    subst h2
    have ho : strOutside v r = false := by simp [strOutside, hv]
    refine ⟨Function.update m k (some ⟨.str v r, f, g⟩), by simp [setValStr, h1, hlow, ho], ⟨?_, ?_, ?_⟩, ?_⟩
    · exact h.upd h1 (by simp [SameReg]) (hA.of_valid _ _ (Or.inr hv))
    · intro k' hk'; exact Function.update_of_ne hk' _ _
    · intro k'
      by_cases hk' : k' = k
      · subst hk'; simp [h1]
      · rw [Function.update_of_ne hk']
    · simp [getStr]
  | num => simp [SameReg] at h2
  | int => simp [SameReg] at h2

theorem setValNum_eff (hA : Adm nan V) (h : WF V t m) {k : String} {d : Option ℚ} {lb ub v : ℚ}
    (hl : t.lookup k = some (.num d lb ub)) (h1 : lb ≤ v) (h2 : v ≤ ub) :
    ∃ m', setValNum m k (some v) = some m' ∧ Eff V t k m m' ∧ getNum m' k = some (some v) := by
  have hk := h k
  rw [hl] at hk
  obtain ⟨⟨o, f, g⟩, hm, hs, h3⟩ := hk
  cases o with
  | num w lb' ub' =>
    simp only [SameReg] at hs
    obtain ⟨rfl, rfl⟩ := hs
    have ho : outside (some v) lb ub = false := by simp [outside, ltD, h1, h2]
    refine ⟨Function.update m k (some ⟨.num (some v) lb ub, f, g⟩), by simp [setValNum, hm, ho],
      ⟨?_, ?_, ?_⟩, ?_⟩
    · exact h.upd hm (by simp [SameReg]) (hA.of_valid _ _ ⟨h1, h2⟩)
    · intro k' hk'; exact Function.update_of_ne hk' _ _
    · intro k'
      by_cases hk' : k' = k
      · subst hk'; simp [hm]
      · rw [Function.update_of_ne hk']
    · simp [getNum]
  | str => simp [SameReg] at hs
  | int => simp [SameReg] at hs

/-- A tolerance rule never fails, changes only its tolerance, and afterwards a user-set tolerance is not
below `tolerance`. -/
theorem tolRule_eff (hA : Adm nan V) (h : WF V t m) {k : String} {d dt : Option ℚ} {lb ub lt ut : ℚ} (hk : k ≠ "tolerance")
    (hl : t.lookup k = some (.num d lb ub)) (ht : t.lookup "tolerance" = some (.num dt lt ut))
    (h1 : lb ≤ lt) (h2 : ut ≤ ub) :
    ∃ m', tolRule k m = some m' ∧ Eff V t k m m' ∧
      (getNum m' k = getNum m k ∨ (getNum m' k = getNum m "tolerance" ∧
        ∃ a c, getNum m k = some (some a) ∧ getNum m "tolerance" = some (some c) ∧ a < c)) ∧
      (userDefined m k = true → ∀ a c, getNum m' k = some (some a) → getNum m' "tolerance" = some (some c) →
        c ≤ a) := by
  obtain ⟨v, hv, _⟩ := getNum_of_lookup hA h hl
  obtain ⟨w, hw, hw'⟩ := getNum_of_lookup hA h ht
  rw [show tolRule k m = if (ltD v w && userDefined m k) then setValNum m k w else some m by
    simp only [tolRule, hv, hw, Option.bind_eq_bind, Option.bind_some]]
  cases hc : (ltD v w && userDefined m k) with
  | false =>
    refine ⟨m, by simp, Eff.refl h k, Or.inl rfl, ?_⟩
    intro hu a c ha hc'
    rw [hv] at ha
    rw [hw] at hc'
    obtain rfl := Option.some.inj ha
    obtain rfl := Option.some.inj hc'
    simpa [hu, ltD] using hc
  | true =>
    simp only [Bool.and_eq_true] at hc
    cases v with
    | none => simp [ltD] at hc
    | some v =>
    cases w with
    | none => simp [ltD] at hc
    | some w =>
    obtain ⟨m', e1, e2, e3⟩ := setValNum_eff hA h hl (v := w) (h1.trans hw'.1) (hw'.2.trans h2)
    refine ⟨m', by simpa using e1, e2, Or.inr ⟨e3.trans hw.symm, v, w, hv, hw, by simpa [ltD] using hc.1⟩, ?_⟩
    intro _ a c ha hc'
    rw [e2.num _ (Ne.symm hk), hw] at hc'
    rw [e3] at ha
    obtain rfl := Option.some.inj (Option.some.inj ha)
    obtain rfl := Option.some.inj (Option.some.inj hc')
    exact le_refl _

/-- A tolerance rule does nothing when the tolerance is not below `tolerance` or not set by the user. -/
theorem tolRule_id (hA : Adm nan V) (h : WF V t m) {k : String} {d dt : Option ℚ} {lb ub lt ut : ℚ}
    (hl : t.lookup k = some (.num d lb ub)) (ht : t.lookup "tolerance" = some (.num dt lt ut))
    (hc : userDefined m k = true → ∀ a c, getNum m k = some (some a) → getNum m "tolerance" = some (some c) →
        c ≤ a) : tolRule k m = some m := by
  obtain ⟨v, hv, _⟩ := getNum_of_lookup hA h hl
  obtain ⟨w, hw, _⟩ := getNum_of_lookup hA h ht
  unfold tolRule
  simp only [hv, hw, Option.bind_eq_bind, Option.bind_some]
  have : (ltD v w && userDefined m k) = false := by
    cases hu : userDefined m k with
    | false => simp
    | true =>
      cases v with
      | none => simp [ltD]
      | some v =>
      cases w with
      | none => simp [ltD]
      | some w => simpa [ltD] using hc hu v w hv hw
  simp [this]

end Hiop.Options
