import Verif.Options.Print
import Verif.Options.Props

/-!
# Options files: order of the lines, and loading what was printed (C72)
-/

namespace Hiop.Options

variable {b : Build}

/-! ### What a line does to an option that no rule changes -/

theorem entry_of_num {t : List (String × Opt)} {V : String → Opt → Prop} {m : Store} (h : WF V t m) {k : String}
    {d : Option ℚ} {lb ub : ℚ} (hl : t.lookup k = some (.num d lb ub)) :
    ∃ old f r, m k = some ⟨.num old lb ub, f, r⟩ := by
  have hn := h k
  rw [hl] at hn
  obtain ⟨⟨o, f, g⟩, e1, e2, _⟩ := hn
  cases o with
  | int => simp [SameReg] at e2
  | str => simp [SameReg] at e2
  | num old lb' ub' =>
    simp only [SameReg] at e2
    obtain ⟨rfl, rfl⟩ := e2
    exact ⟨old, f, g, e1⟩

theorem entry_of_int {t : List (String × Opt)} {V : String → Opt → Prop} {m : Store} (h : WF V t m) {k : String}
    {d lb ub : ℤ} (hl : t.lookup k = some (.int d lb ub)) :
    ∃ old f r, m k = some ⟨.int old lb ub, f, r⟩ := by
  have hn := h k
  rw [hl] at hn
  obtain ⟨⟨o, f, g⟩, e1, e2, _⟩ := hn
  cases o with
  | num => simp [SameReg] at e2
  | str => simp [SameReg] at e2
  | int old lb' ub' =>
    simp only [SameReg] at e2
    obtain ⟨rfl, rfl⟩ := e2
    exact ⟨old, f, g, e1⟩

theorem entry_of_str {t : List (String × Opt)} {V : String → Opt → Prop} {m : Store} (h : WF V t m) {k : String}
    {d : String} {rg : List String} (hl : t.lookup k = some (.str d rg)) :
    ∃ old f r, m k = some ⟨.str old rg, f, r⟩ := by
  have hn := h k
  rw [hl] at hn
  obtain ⟨⟨o, f, g⟩, e1, e2, _⟩ := hn
  cases o with
  | num => simp [SameReg] at e2
  | int => simp [SameReg] at e2
  | str old r' =>
    simp only [SameReg] at e2
    subst e2
    exact ⟨old, f, g, e1⟩

/-- What a line of the file assigns before the consistency pass: the value of option `name` if the line says
something about it. -/
theorem loadLine_pre {t : List (String × Opt)} {V : String → Opt → Prop} {m : Store} (hw : WF V t m)
    (ens : Store → Option Store) (P : Parser) (line : String) :
    (loadLine ens P m line = some m ∧ ∀ k, lineSays t P k line = none) ∨
    ∃ m1, loadLine ens P m line = ens m1 ∧
      ∀ k, (m1 k).map Entry.o = (lineSays t P k line).or ((m k).map Entry.o) := by
  unfold loadLine lineSays
  rcases ht : tokens line with _ | ⟨name, _ | ⟨value, rest⟩⟩
  · exact Or.inl ⟨rfl, fun k => rfl⟩
  · exact Or.inl ⟨rfl, fun k => rfl⟩
  simp only []
  by_cases hh : name.toList.head? = some '#'
  · exact Or.inl ⟨by simp [hh], fun k => by simp [hh]⟩
  simp only [hh, if_false, ne_eq, not_false_eq_true, and_true]
  rcases hl : t.lookup name with _ | o
  · have hn := hw name
    rw [hl] at hn
    simp only at hn
    refine Or.inl ⟨by simp [hn], fun k => ?_⟩
    by_cases hk : name = k
    · subst hk; simp [hl]
    · simp [hk]
  cases o with
  | num d lb ub =>
    obtain ⟨old, f, r, hm⟩ := entry_of_num hw hl
    simp only [hm]
    rcases hp : P.num value with _ | v
    · refine Or.inl ⟨rfl, fun k => ?_⟩
      by_cases hk : name = k
      · subst hk; simp [hl]
      · simp [hk]
    · refine Or.inr ⟨_, (by
        simp only [setNumeric, hm, Bool.not_true, Bool.and_false, Bool.false_eq_true, if_false]
        rfl), fun k => ?_⟩
      by_cases hk : name = k
      · subst hk
        simp only [hl, Function.update_self, Option.map_some, if_true, hm]
        cases v with
        | none => simp [outside, ltD]
        | some q =>
          by_cases hq : lb ≤ q ∧ q ≤ ub
          · have : outside (some q) lb ub = false := by simp [outside, ltD, hq.1, hq.2]
            simp [this, hq]
          · have : outside (some q) lb ub = true := by
              simp only [not_and_or, not_le] at hq
              simpa [outside, ltD] using hq
            simp [this, hq]
      · simp only [hk, if_false, Option.none_or]
        rw [Function.update_of_ne (Ne.symm hk)]
  | int d lb ub =>
    obtain ⟨old, f, r, hm⟩ := entry_of_int hw hl
    simp only [hm]
    rcases hp : P.int value with _ | v
    · refine Or.inl ⟨rfl, fun k => ?_⟩
      by_cases hk : name = k
      · subst hk; simp [hl]
      · simp [hk]
    · refine Or.inr ⟨_, (by
        simp only [setInteger, hm, Bool.not_true, Bool.and_false, Bool.false_eq_true, if_false]
        rfl), fun k => ?_⟩
      by_cases hk : name = k
      · subst hk
        simp only [hl, Function.update_self, Option.map_some, if_true, hm]
        by_cases hq : lb ≤ v ∧ v ≤ ub
        · have : ¬ (v < lb ∨ v > ub) := by omega
          simp [this, hq]
        · have : v < lb ∨ v > ub := by omega
          simp [this, hq]
      · simp only [hk, if_false, Option.none_or]
        rw [Function.update_of_ne (Ne.symm hk)]
  | str d rg =>
    obtain ⟨old, f, r, hm⟩ := entry_of_str hw hl
    simp only [hm]
    refine Or.inr ⟨_, (by
        simp only [setString, hm, Bool.not_true, Bool.and_false, Bool.false_eq_true, if_false]
        rfl), fun k => ?_⟩
    by_cases hk : name = k
    · subst hk
      simp only [hl, Function.update_self, Option.map_some, if_true, hm]
      by_cases hq : rg = [] ∨ lower value ∈ rg
      · have : strOutside (lower value) rg = false := by
          rcases hq with q | q <;> simp [strOutside, q]
        simp [this, hq]
      · have : strOutside (lower value) rg = true := by
          simp only [not_or] at hq
          simp [strOutside, hq.1, hq.2]
        simp [this, hq]
    · simp only [hk, if_false, Option.none_or]
      rw [Function.update_of_ne (Ne.symm hk)]

theorem lineSays_ok {t : List (String × Opt)} {P : Parser} {k line : String} {o : Opt}
    (h : lineSays t P k line = some o) : ∃ o', t.lookup k = some o' ∧ SameReg o' o ∧ Valid true o := by
  unfold lineSays at h
  split at h
  · split at h
    · split at h
      · rename_i d lb ub hl
        split at h
        · split at h
          · rename_i hq
            obtain rfl := Option.some.inj h
            exact ⟨_, hl, ⟨rfl, rfl⟩, hq⟩
          · simp at h
        · obtain rfl := Option.some.inj h
          exact ⟨_, hl, ⟨rfl, rfl⟩, rfl⟩
        · simp at h
      · rename_i d lb ub hl
        split at h
        · split at h
          · rename_i hq
            obtain rfl := Option.some.inj h
            exact ⟨_, hl, ⟨rfl, rfl⟩, hq⟩
          · simp at h
        · simp at h
      · rename_i d r hl
        split at h
        · rename_i hq
          obtain rfl := Option.some.inj h
          exact ⟨_, hl, rfl, hq⟩
        · simp at h
      · simp at h
    · simp at h
  · simp at h

/-- A line that says something about an option sets it. -/
theorem lineSays_sets {t : List (String × Opt)} {P : Parser} {k line : String} {o : Opt}
    (h : lineSays t P k line = some o) : Sets t P line k := by
  unfold lineSays at h
  split at h
  · rename_i name value rest ht
    split at h
    · rename_i hn
      obtain ⟨rfl, hh⟩ := hn
      refine ⟨value, rest, ht, hh, ?_⟩
      split at h
      · rename_i hl
        rw [hl]
        split at h
        · rename_i hp; simp [hp]
        · rename_i hp; simp [hp]
        · simp at h
      · rename_i hl
        rw [hl]
        split at h
        · rename_i hp; simp [hp]
        · simp at h
      · rename_i hl
        rw [hl]; trivial
      · simp at h
    · simp at h
  · simp at h

/-- A line is about one option only. -/
theorem lineSays_unique {t : List (String × Opt)} {P : Parser} {k k' line : String} {o : Opt}
    (h : lineSays t P k line = some o) (hk : k' ≠ k) : lineSays t P k' line = none := by
  obtain ⟨value, rest, ht, hh, _⟩ := lineSays_sets h
  unfold lineSays
  rw [ht]
  simp [Ne.symm hk]

theorem wf_pre {t : List (String × Opt)} {P : Parser} {line : String} {m m1 : Store} (hw : InRange true t m)
    (h : ∀ k, (m1 k).map Entry.o = (lineSays t P k line).or ((m k).map Entry.o)) : InRange true t m1 := by
  intro n
  have hn := hw n
  have h1 := h n
  rcases hs : lineSays t P n line with _ | o
  · rw [hs, Option.none_or] at h1
    rcases hl : t.lookup n with _ | o
    · rw [hl] at hn
      simp only at hn ⊢
      rw [hn] at h1
      simpa using h1
    · rw [hl] at hn
      obtain ⟨e, a1, a2, a3⟩ := hn
      rw [a1] at h1
      simp only [Option.map_some, Option.map_eq_some_iff] at h1
      obtain ⟨e', b1, b2⟩ := h1
      exact ⟨e', b1, b2 ▸ a2, b2 ▸ a3⟩
  · rw [hs, Option.some_or] at h1
    obtain ⟨o', c1, c2, c3⟩ := lineSays_ok hs
    rw [c1]
    simp only [Option.map_eq_some_iff] at h1
    obtain ⟨e', b1, b2⟩ := h1
    exact ⟨e', b1, b2 ▸ c2, b2 ▸ c3⟩

theorem loadLine_nonrule {P : Parser} {m m' : Store} {line k : String} (hw : InRange true (nlpTable b) m)
    (h : loadLine (ensureNlp b) P m line = some m') (hk : k ∉ ruleKeys) :
    (m' k).map Entry.o = (lineSays (nlpTable b) P k line).or ((m k).map Entry.o) := by
  rcases loadLine_pre hw (ensureNlp b) P line with ⟨q, hq⟩ | ⟨m1, q, hq⟩
  · rw [q] at h
    obtain rfl := Option.some.inj h
    rw [hq k, Option.none_or]
  · rw [q] at h
    obtain ⟨m2, r1, _, _, r4, _⟩ := ensureNlp_ok (wf_pre hw hq)
    rw [h] at r1
    obtain rfl := Option.some.inj r1
    rw [r4 k hk, hq k]

/-- Reading a file from a store: it never fails, and every option outside `ruleKeys` has the value the file
says, or its old value. -/
theorem load_nonrule (P : Parser) (file : List String) : ∀ m : Store, InRange true (nlpTable b) m →
    ∃ m', file.foldlM (loadLine (ensureNlp b) P) m = some m' ∧ InRange true (nlpTable b) m' ∧
      ∀ k, k ∉ ruleKeys → (m' k).map Entry.o = (fileSays (nlpTable b) P k file).or ((m k).map Entry.o) := by
  induction file with
  | nil => exact fun m hw => ⟨m, rfl, hw, fun k _ => rfl⟩
  | cons l ls ih =>
    intro m hw
    obtain ⟨m1, h1, h2⟩ := loadLine_wf (adm_valid true) (nlp_ensOk (b := b)) (P := P) (fun _ _ => rfl) hw l
    obtain ⟨m', g1, g2, g3⟩ := ih m1 h2
    refine ⟨m', by rw [List.foldlM_cons, h1]; exact g1, g2, fun k hk => ?_⟩
    rw [g3 k hk, loadLine_nonrule hw h1 hk, fileSays]
    cases fileSays (nlpTable b) P k ls <;> rfl

theorem register_lookup (k : String) : (register (nlpTable b) k).map Entry.o = (nlpTable b).lookup k := by
  unfold register
  rw [foldl_register _ _ (nlp_names b)]
  cases (nlpTable b).lookup k <;> rfl

/-- The options file means what it says: for every file, an option that the consistency rules never touch
has after construction the value the file says (the last readable, in-range line about it, or the default).
The rule-dependent options are missing here: see `C72_order_refuted` and the theorems on tolerances. -/
theorem C72_file_value_partial (b : Build) (P : Parser) (file : List String) :
    ∃ m, construct (nlpTable b) (ensureNlp b) P file = some m ∧
      ∀ k, k ∉ ruleKeys → (m k).map Entry.o = valueIn (nlpTable b) P file k := by
  obtain ⟨m1, h1, h2, h3⟩ := load_nonrule (b := b) P file _ (register_wf (nlp_names b) (nlp_defaults b))
  obtain ⟨m2, g1, _, _, g4, _⟩ := ensureNlp_ok h2
  refine ⟨m2, by simp only [construct, h1, Option.bind_eq_bind, Option.bind_some, g1], fun k hk => ?_⟩
  rw [g4 k hk, h3 k hk, register_lookup]; rfl

theorem fileSays_eq (t : List (String × Opt)) (P : Parser) (k : String) (file : List String) :
    fileSays t P k file = (file.filterMap (lineSays t P k)).getLast? := by
  induction file with
  | nil => rfl
  | cons l ls ih =>
    rw [fileSays, ih, List.filterMap_cons]
    cases h : lineSays t P k l with
    | none => simp
    | some o =>
      rw [List.getLast?_cons]
      cases (ls.filterMap (lineSays t P k)).getLast? <;> rfl

/-- The order of the lines does not matter for an option that the rules never touch, when at most one line
of the file says something about it. -/
theorem C72_order_partial (b : Build) (P : Parser) (file file' : List String) (hp : file.Perm file')
    (k : String) (hk : k ∉ ruleKeys)
    (h1 : (file.filterMap (lineSays (nlpTable b) P k)).length ≤ 1) :
    ∃ m m', construct (nlpTable b) (ensureNlp b) P file = some m ∧
      construct (nlpTable b) (ensureNlp b) P file' = some m' ∧
      (m k).map Entry.o = (m' k).map Entry.o := by
  obtain ⟨m, g1, g2⟩ := C72_file_value_partial b P file
  obtain ⟨m', g1', g2'⟩ := C72_file_value_partial b P file'
  refine ⟨m, m', g1, g1', ?_⟩
  rw [g2 k hk, g2' k hk, valueIn, valueIn, fileSays_eq, fileSays_eq]
  have hq := hp.filterMap (lineSays (nlpTable b) P k)
  rcases hs : file.filterMap (lineSays (nlpTable b) P k) with _ | ⟨a, _ | ⟨c, l⟩⟩
  · rw [hs] at hq
    rw [hq.symm.eq_nil]
  · rw [hs] at hq
    rw [List.perm_singleton.1 hq.symm]
  · rw [hs] at h1
    simp at h1

/-! ### The four tolerances -/

/-- A number reader for the examples. -/
def tolP : Parser where
  num s :=
    if s = "1e-9" ∨ s = "1.000e-09" then some (some (1 / 10 ^ 9))
    else if s = "1e-10" ∨ s = "1.000e-10" then some (some (1 / 10 ^ 10))
    else none
  int _ := none

/-- The order of the lines matters for the tolerances: `acceptable_tolerance 1e-9` followed by
`tolerance 1e-10` leaves `acceptable_tolerance` at `1e-8`, the default of `tolerance`; in the other order it
is `1e-9`. -/
theorem C72_order_refuted : ¬ ∀ (b : Build) (P : Parser) (file file' : List String) (_ : file.Perm file')
    (k : String) (_ : (file.filterMap (lineSays (nlpTable b) P k)).length ≤ 1) (m m' : Store),
    construct (nlpTable b) (ensureNlp b) P file = some m →
    construct (nlpTable b) (ensureNlp b) P file' = some m' →
    (m k).map Entry.o = (m' k).map Entry.o := by
  intro h
  obtain ⟨m, g1, _⟩ := C72_file_value_partial plain tolP ["acceptable_tolerance 1e-9", "tolerance 1e-10"]
  obtain ⟨m', g1', _⟩ := C72_file_value_partial plain tolP ["tolerance 1e-10", "acceptable_tolerance 1e-9"]
  have e := h plain tolP _ _ (List.Perm.swap _ _ _) "acceptable_tolerance" (by decide +kernel) m m' g1 g1'
  have a : (construct (nlpTable plain) (ensureNlp plain) tolP
      ["acceptable_tolerance 1e-9", "tolerance 1e-10"]).map (fun m => getNum m "acceptable_tolerance") =
      some (some (some (1 / 10 ^ 8))) := by decide +kernel
  have a' : (construct (nlpTable plain) (ensureNlp plain) tolP
      ["tolerance 1e-10", "acceptable_tolerance 1e-9"]).map (fun m => getNum m "acceptable_tolerance") =
      some (some (some (1 / 10 ^ 9))) := by decide +kernel
  rw [g1] at a
  rw [g1'] at a'
  simp only [Option.map_some, Option.some.injEq] at a a'
  rw [getNum_congr e, a'] at a
  exact absurd a (by decide +kernel)

theorem getNum_of_o {m : Store} {k : String} {v : Option ℚ} {lb ub : ℚ}
    (h : (m k).map Entry.o = some (.num v lb ub)) : getNum m k = some v := by
  simp only [Option.map_eq_some_iff] at h
  obtain ⟨⟨o, f, r⟩, h1, h2⟩ := h
  simp only at h2
  subst h2
  simp [getNum, h1]

theorem tolKeys_facts {k : String} (hk : k ∈ tolKeys) :
    k ≠ "tolerance" ∧ k ∉ chkOpts ∧ ∀ m, Consistent b m → TolOk m k := by
  simp only [tolKeys, List.mem_cons, List.not_mem_nil, or_false] at hk
  rcases hk with rfl | rfl | rfl | rfl
  · exact ⟨by decide, by decide, fun m h => h.acc⟩
  · exact ⟨by decide, by decide, fun m h => h.dual⟩
  · exact ⟨by decide, by decide, fun m h => h.cons⟩
  · exact ⟨by decide, by decide, fun m h => h.comp⟩

theorem user_of_inFile {m : Store} {k : String} (h : inFile m k = true) : userDefined m k = true := by
  unfold inFile at h
  unfold userDefined
  split <;> simp_all

/-- One line, for a tolerance that the file has already set or sets now: afterwards it is the larger of its
value and of `tolerance`. -/
theorem tol_step {P : Parser} {m m' : Store} {line k : String} {a T : ℚ} (hk : k ∈ tolKeys)
    (hw : InRange true (nlpTable b) m) (h : loadLine (ensureNlp b) P m line = some m')
    (hi : inFile m k = true ∨ Sets (nlpTable b) P line k)
    (ha : ∀ m1 : Store, (m1 k).map Entry.o = (lineSays (nlpTable b) P k line).or ((m k).map Entry.o) →
      getNum m1 k = some (some a))
    (hT : ∀ m1 : Store, (m1 "tolerance").map Entry.o =
      (lineSays (nlpTable b) P "tolerance" line).or ((m "tolerance").map Entry.o) →
      getNum m1 "tolerance" = some (some T))
    (hskip : (∀ k', lineSays (nlpTable b) P k' line = none) → T ≤ a) :
    inFile m' k = true ∧ getNum m' k = some (some (max a T)) ∧ getNum m' "tolerance" = some (some T) := by
  obtain ⟨k1, k2, k3⟩ := tolKeys_facts (b := b) hk
  have hi' := loadLine_inFile hw (Or.inl k2) h hi
  have hT' : getNum m' "tolerance" = some (some T) := hT m' (loadLine_nonrule hw h (by decide))
  refine ⟨hi', ?_, hT'⟩
  rcases loadLine_pre hw (ensureNlp b) P line with ⟨q, hq⟩ | ⟨m1, q, hq⟩
  · rw [max_eq_left (hskip hq)]
    rw [q] at h
    obtain rfl := Option.some.inj h
    exact ha m (by rw [hq k, Option.none_or])
  · rw [q] at h
    obtain ⟨m2, r1, _, r3, _, _, _, r7⟩ := ensureNlp_ok (wf_pre hw hq)
    rw [h] at r1
    obtain rfl := Option.some.inj r1
    have ha1 := ha m1 (hq k)
    have hT1 := hT m1 (hq "tolerance")
    rcases r7 k hk with z | ⟨z, a', c', z1, z2, z3⟩
    · rw [ha1] at z
      rw [z, max_eq_left (k3 m' r3 (user_of_inFile hi') a T z hT')]
    · rw [ha1] at z1
      rw [hT1] at z2 z
      obtain rfl := Option.some.inj (Option.some.inj z1)
      obtain rfl := Option.some.inj (Option.some.inj z2)
      rw [z, max_eq_right z3.le]

/-- Lines that say nothing about the tolerance `k` or about `tolerance`. -/
theorem tol_quiet {P : Parser} {k : String} (hk : k ∈ tolKeys) {a T : ℚ} (hle : T ≤ a) (ls : List String)
    (h1 : ∀ l ∈ ls, lineSays (nlpTable b) P k l = none)
    (h2 : ∀ l ∈ ls, lineSays (nlpTable b) P "tolerance" l = none) :
    ∀ m : Store, InRange true (nlpTable b) m → inFile m k = true → getNum m k = some (some a) →
      getNum m "tolerance" = some (some T) →
      ∃ m', ls.foldlM (loadLine (ensureNlp b) P) m = some m' ∧ InRange true (nlpTable b) m' ∧
        inFile m' k = true ∧ getNum m' k = some (some a) ∧ getNum m' "tolerance" = some (some T) := by
  induction ls with
  | nil => exact fun m hw hi ha hT => ⟨m, rfl, hw, hi, ha, hT⟩
  | cons l ls ih =>
    intro m hw hi ha hT
    obtain ⟨m1, g1, g2⟩ := loadLine_wf (adm_valid true) (nlp_ensOk (b := b)) (P := P) (fun _ _ => rfl) hw l
    obtain ⟨f1, f2, f3⟩ := tol_step (a := a) (T := T) hk hw g1 (Or.inl hi)
      (fun m1 e => by
        rw [h1 l List.mem_cons_self, Option.none_or] at e
        rw [getNum_congr e]; exact ha)
      (fun m1 e => by
        rw [h2 l List.mem_cons_self, Option.none_or] at e
        rw [getNum_congr e]; exact hT)
      (fun _ => hle)
    rw [max_eq_left hle] at f2
    obtain ⟨m', q1, q2⟩ := ih (fun l hl => h1 l (List.mem_cons_of_mem _ hl))
      (fun l hl => h2 l (List.mem_cons_of_mem _ hl)) m1 g2 f1 f2 f3
    exact ⟨m', by rw [List.foldlM_cons, g1]; exact q1, q2⟩

theorem fileSays_none {t : List (String × Opt)} {P : Parser} {k : String} {ls : List String}
    (h : ∀ l ∈ ls, lineSays t P k l = none) : fileSays t P k ls = none := by
  induction ls with
  | nil => rfl
  | cons l ls ih =>
    rw [fileSays, ih (fun l hl => h l (List.mem_cons_of_mem _ hl)), h l List.mem_cons_self]; rfl

/-- The final consistency pass of the constructor. -/
theorem tol_final {k : String} (hk : k ∈ tolKeys) {a T : ℚ} (hle : T ≤ a) {m : Store}
    (hw : InRange true (nlpTable b) m) (ha : getNum m k = some (some a))
    (hT : getNum m "tolerance" = some (some T)) :
    ∃ m', ensureNlp b m = some m' ∧ getNum m' k = some (some a) := by
  obtain ⟨m', r1, _, _, _, _, _, r7⟩ := ensureNlp_ok hw
  refine ⟨m', r1, ?_⟩
  rcases r7 k hk with z | ⟨_, a', c', z1, z2, z3⟩
  · rw [z, ha]
  · rw [ha] at z1
    rw [hT] at z2
    obtain rfl := Option.some.inj (Option.some.inj z1)
    obtain rfl := Option.some.inj (Option.some.inj z2)
    exact absurd z3 (not_lt.2 hle)

/-- `tolerance` stated before a tolerance `k`: the option `k` becomes the larger of the two values. -/
theorem C72_tolerance_first (b : Build) (P : Parser) (k : String) (hk : k ∈ tolKeys) (pre mid post : List String)
    (lt lk : String) (v T lb ub lb' ub' : ℚ)
    (ht : lineSays (nlpTable b) P "tolerance" lt = some (.num (some T) lb' ub'))
    (hv : lineSays (nlpTable b) P k lk = some (.num (some v) lb ub))
    (hk' : ∀ l ∈ mid ++ post, lineSays (nlpTable b) P k l = none)
    (ht' : ∀ l ∈ mid ++ post, lineSays (nlpTable b) P "tolerance" l = none) :
    ∃ m, construct (nlpTable b) (ensureNlp b) P (pre ++ lt :: mid ++ lk :: post) = some m ∧
      getNum m k = some (some (max v T)) := by
  obtain ⟨k1, k2, k3⟩ := tolKeys_facts (b := b) hk
  obtain ⟨m1, h1, h2, h3⟩ := load_nonrule (b := b) P (pre ++ lt :: mid) _
    (register_wf (nlp_names b) (nlp_defaults b))
  have hT1 : (m1 "tolerance").map Entry.o = some (.num (some T) lb' ub') := by
    rw [h3 _ (by decide), fileSays_eq, List.filterMap_append, List.filterMap_cons, ht,
      List.filterMap_eq_nil_iff.2 (fun l hl => ht' l (List.mem_append_left _ hl))]
    simp
  obtain ⟨m2, g1, g2⟩ := loadLine_wf (adm_valid true) (nlp_ensOk (b := b)) (P := P) (fun _ _ => rfl) h2 lk
  obtain ⟨f1, f2, f3⟩ := tol_step (a := v) (T := T) hk h2 g1 (Or.inr (lineSays_sets hv))
      (fun m e => by rw [hv, Option.some_or] at e; exact getNum_of_o e)
      (fun m e => by
        rw [lineSays_unique hv (Ne.symm k1), Option.none_or, hT1] at e; exact getNum_of_o e)
      (fun hs => by rw [hs k] at hv; simp at hv)
  obtain ⟨m3, q1, q2, q3, q4, q5⟩ := tol_quiet hk (le_max_right v T) post
    (fun l hl => hk' l (List.mem_append_right _ hl)) (fun l hl => ht' l (List.mem_append_right _ hl))
    m2 g2 f1 f2 f3
  obtain ⟨m4, r1, r2⟩ := tol_final hk (le_max_right v T) q2 q4 q5
  refine ⟨m4, ?_, r2⟩
  have : (pre ++ lt :: mid ++ lk :: post).foldlM (loadLine (ensureNlp b) P) (register (nlpTable b)) = some m3 := by
    rw [List.foldlM_append, h1]
    show (lk :: post).foldlM (loadLine (ensureNlp b) P) m1 = _
    rw [List.foldlM_cons, g1]
    exact q1
  simp only [construct, this, Option.bind_eq_bind, Option.bind_some, r1]

/-- A tolerance `k` stated before `tolerance`: it is first raised to the default `1e-8` of `tolerance`, and
then to the value of `tolerance`. -/
theorem C72_tolerance_last (b : Build) (P : Parser) (k : String) (hk : k ∈ tolKeys) (pre mid post : List String)
    (lt lk : String) (v T lb ub lb' ub' : ℚ)
    (ht : lineSays (nlpTable b) P "tolerance" lt = some (.num (some T) lb' ub'))
    (hv : lineSays (nlpTable b) P k lk = some (.num (some v) lb ub))
    (hk' : ∀ l ∈ mid ++ post, lineSays (nlpTable b) P k l = none)
    (ht' : ∀ l ∈ pre ++ mid ++ post, lineSays (nlpTable b) P "tolerance" l = none) :
    ∃ m, construct (nlpTable b) (ensureNlp b) P (pre ++ lk :: mid ++ lt :: post) = some m ∧
      getNum m k = some (some (max (max v (1 / 10 ^ 8)) T)) := by
  obtain ⟨k1, k2, k3⟩ := tolKeys_facts (b := b) hk
  obtain ⟨m1, h1, h2, h3⟩ := load_nonrule (b := b) P pre _ (register_wf (nlp_names b) (nlp_defaults b))
  have hT1 : (m1 "tolerance").map Entry.o = some (.num (some (1 / 10 ^ 8)) (1 / 10 ^ 14) (1 / 10)) := by
    rw [h3 _ (by decide), fileSays_none (fun l hl => ht' l (by simp [hl])), Option.none_or, register_lookup]
    rfl
  obtain ⟨m2, g1, g2⟩ := loadLine_wf (adm_valid true) (nlp_ensOk (b := b)) (P := P) (fun _ _ => rfl) h2 lk
  obtain ⟨f1, f2, f3⟩ := tol_step (a := v) (T := 1 / 10 ^ 8) hk h2 g1 (Or.inr (lineSays_sets hv))
      (fun m e => by rw [hv, Option.some_or] at e; exact getNum_of_o e)
      (fun m e => by
        rw [lineSays_unique hv (Ne.symm k1), Option.none_or, hT1] at e; exact getNum_of_o e)
      (fun hs => by rw [hs k] at hv; simp at hv)
  obtain ⟨m3, q1, q2, q3, q4, q5⟩ := tol_quiet hk (le_max_right v (1 / 10 ^ 8)) mid
    (fun l hl => hk' l (List.mem_append_left _ hl)) (fun l hl => ht' l (by simp [hl]))
    m2 g2 f1 f2 f3
  obtain ⟨m4, g1', g2'⟩ := loadLine_wf (adm_valid true) (nlp_ensOk (b := b)) (P := P) (fun _ _ => rfl) q2 lt
  obtain ⟨f1', f2', f3'⟩ := tol_step (a := max v (1 / 10 ^ 8)) (T := T) hk q2 g1' (Or.inl q3)
      (fun m e => by
        rw [lineSays_unique ht k1, Option.none_or] at e
        rw [getNum_congr e]; exact q4)
      (fun m e => by rw [ht, Option.some_or] at e; exact getNum_of_o e)
      (fun hs => by rw [hs "tolerance"] at ht; simp at ht)
  obtain ⟨m5, q1', q2', q3', q4', q5'⟩ := tol_quiet hk (le_max_right (max v (1 / 10 ^ 8)) T) post
    (fun l hl => hk' l (List.mem_append_right _ hl)) (fun l hl => ht' l (by simp [hl]))
    m4 g2' f1' f2' f3'
  obtain ⟨m6, r1, r2⟩ := tol_final hk (le_max_right (max v (1 / 10 ^ 8)) T) q2' q4' q5'
  refine ⟨m6, ?_, r2⟩
  have : (pre ++ lk :: mid ++ lt :: post).foldlM (loadLine (ensureNlp b) P) (register (nlpTable b)) = some m5 := by
    rw [List.append_assoc, List.foldlM_append, h1]
    show (lk :: (mid ++ lt :: post)).foldlM (loadLine (ensureNlp b) P) m1 = _
    rw [List.foldlM_cons, g1]
    show (mid ++ lt :: post).foldlM (loadLine (ensureNlp b) P) m2 = _
    rw [List.foldlM_append, q1]
    show (lt :: post).foldlM (loadLine (ensureNlp b) P) m3 = _
    rw [List.foldlM_cons, g1']
    exact q1'
  simp only [construct, this, Option.bind_eq_bind, Option.bind_some, r1]

/-- The hypotheses of the two theorems hold for the file of `C72_order_refuted`. -/
example : lineSays (nlpTable plain) tolP "tolerance" "  tolerance 1e-10 # tight" =
      some (.num (some (1 / 10 ^ 10)) (1 / 10 ^ 14) (1 / 10)) ∧
    lineSays (nlpTable plain) tolP "comp_tol" "comp_tol 1e-9" =
      some (.num (some (1 / 10 ^ 9)) (1 / 10 ^ 16) (10 ^ 10)) ∧
    lineSays (nlpTable plain) tolP "comp_tol" "tolerance 1e-10" = none := by decide +kernel

/-! ### Printing and loading back -/

theorem tokens_cons {w rest : List Char} {c : Char} (h0 : w ≠ []) (h1 : ∀ x ∈ w, isSpace x = false)
    (hc : isSpace c = true) :
    tokens (String.ofList (w ++ c :: rest)) = String.ofList w :: tokens (String.ofList rest) := by
  unfold tokens
  rw [String.toList_ofList, String.toList_ofList, List.splitOnP_append_cons_of_forall_mem h1 c hc]
  have : w.isEmpty = false := by cases w <;> simp_all
  simp [this]

theorem tokens_single {w : List Char} (h0 : w ≠ []) (h1 : ∀ x ∈ w, isSpace x = false) :
    tokens (String.ofList w) = [String.ofList w] := by
  unfold tokens
  rw [String.toList_ofList, List.splitOnP_eq_singleton h1]
  have : w.isEmpty = false := by cases w <;> simp_all
  simp [this]

/-- A word: not empty and without blanks. -/
def Word (s : String) : Prop := s.toList ≠ [] ∧ ∀ c ∈ s.toList, isSpace c = false

/-- A printed line is read back as the name and the value it was printed from. -/
theorem C72_line_tokens (short : Bool) (note : String → String) (k : String) (o : Opt) (hk : Word k)
    (hv : Word (fmtVal o)) : ∃ rest, tokens (printLine short note k o) = k :: fmtVal o :: rest := by
  have e : ∀ c : List Char, k ++ " " ++ fmtVal o ++ String.ofList c =
      String.ofList (k.toList ++ ' ' :: ((fmtVal o).toList ++ c)) := by
    intro c
    apply String.ext
    simp
  unfold printLine comment
  cases short with
  | true =>
    refine ⟨[], ?_⟩
    have := e []
    simp only [if_true]
    rw [show ("" : String) = String.ofList [] from rfl, this, tokens_cons hk.1 hk.2 (by decide), List.append_nil,
      tokens_single hv.1 hv.2, String.ofList_toList, String.ofList_toList]
  | false =>
    simp only [Bool.false_eq_true, if_false]
    refine ⟨tokens (String.ofList ('\t' :: '#' :: ' ' :: (note k).toList)), ?_⟩
    have hc : (" \t# " ++ note k : String) = String.ofList (' ' :: '\t' :: '#' :: ' ' :: (note k).toList) := by
      apply String.ext
      simp
    rw [hc, e, tokens_cons hk.1 hk.2 (by decide), tokens_cons hv.1 hv.2 (by decide), String.ofList_toList,
      String.ofList_toList]

theorem digit_not_space {c : Char} (h : c.isDigit = true) : isSpace c = false := by
  cases hs : isSpace c with
  | false => rfl
  | true =>
    simp only [isSpace, Bool.or_eq_true, decide_eq_true_eq] at hs
    rcases hs with ((((rfl | rfl) | rfl) | rfl) | rfl) | rfl <;> exact absurd h (by decide)

theorem nat_chars (n : ℕ) : ∀ c ∈ (toString n).toList, isSpace c = false := by
  intro c hc
  refine digit_not_space ?_
  have e : toString n = String.ofList (Nat.toDigits 10 n) := rfl
  rw [e, String.toList_ofList] at hc
  exact Nat.isDigit_of_mem_toDigits (by decide) (by decide) hc

theorem nat_word (n : ℕ) : Word (toString n) := by
  refine ⟨?_, nat_chars n⟩
  have e : toString n = String.ofList (Nat.toDigits 10 n) := rfl
  rw [e, String.toList_ofList]
  exact Nat.toDigits_ne_nil

theorem pad2_chars (n : ℕ) : ∀ c ∈ (pad2 n).toList, isSpace c = false := by
  unfold pad2
  intro c hc
  split at hc
  · rw [String.toList_append, List.mem_append] at hc
    rcases hc with hc | hc
    · have : c = '0' := by simpa using hc
      rw [this]; decide
    · exact nat_chars n c hc
  · exact nat_chars n c hc

/-- Printed numbers are words. -/
theorem fmtInt_word (v : ℤ) : Word (fmtInt v) := by
  unfold fmtInt
  constructor
  · rw [String.toList_append]
    exact List.append_ne_nil_of_right_ne_nil _ (nat_word _).1
  · intro c hc
    rw [String.toList_append, List.mem_append] at hc
    rcases hc with hc | hc
    · split at hc
      · have : c = '-' := by simpa using hc
        rw [this]; decide
      · simp at hc
    · exact nat_chars _ c hc

theorem fmtNum_word (v : Option ℚ) : Word (fmtNum v) := by
  cases v with
  | none => exact ⟨by decide, by decide⟩
  | some q =>
    by_cases h0 : q = 0
    · simp only [fmtNum, h0, if_true]
      exact ⟨by decide, by decide⟩
    simp only [fmtNum, h0, if_false]
    constructor
    · simp only [String.toList_append]
      intro h
      simp at h
    · intro c hc
      simp only [String.toList_append, List.mem_append, String.toList_ofList] at hc
      rcases hc with (((((hc | hc) | hc) | hc) | hc) | hc) | hc
      · split at hc
        · have : c = '-' := by simpa using hc
          rw [this]; decide
        · simp at hc
      · exact nat_chars _ c (List.mem_of_mem_take hc)
      · have : c = '.' := by simpa using hc
        rw [this]; decide
      · exact nat_chars _ c (List.mem_of_mem_drop hc)
      · have : c = 'e' := by simpa using hc
        rw [this]; decide
      · split at hc
        · have : c = '-' := by simpa using hc
          rw [this]; decide
        · have : c = '+' := by simpa using hc
          rw [this]; decide
      · exact pad2_chars _ c hc

/-- Decidable form of `Word`. -/
def wordB (s : String) : Bool := !s.toList.isEmpty && s.toList.all (fun c => !isSpace c)

theorem word_of_wordB {s : String} (h : wordB s = true) : Word s := by
  simp only [wordB, Bool.and_eq_true, Bool.not_eq_true', List.all_eq_true] at h
  exact ⟨fun e => by rw [e] at h; simp at h, h.2⟩

theorem names_eq (b : Build) : names (nlpTable b) = names (nlpTable plain) := rfl

theorem names_perm (t : List (String × Opt)) : (names t).Perm (t.map Prod.fst) := List.perm_insertionSort _ _

theorem name_ok {n : String} (h : n ∈ names (nlpTable b)) : Word n ∧ n.toList.head? ≠ some '#' := by
  have h1 : n ∈ (nlpTable plain).map Prod.fst := by
    rw [names_eq] at h
    exact (names_perm _).subset h
  have h2 : ((nlpTable plain).map Prod.fst).all (fun n => wordB n && decide (n.toList.head? ≠ some '#')) = true := by
    decide +kernel
  rw [List.all_eq_true] at h2
  have := h2 n h1
  simp only [Bool.and_eq_true, decide_eq_true_eq] at this
  exact ⟨word_of_wordB this.1, this.2⟩

theorem mem_names {k : String} {o : Opt} (h : (nlpTable b).lookup k = some o) : k ∈ names (nlpTable b) :=
  (names_perm _).symm.subset (List.mem_map.2 ⟨_, mem_of_lookup h, rfl⟩)

/-- The two options that take any string. -/
def freeKeys : List String := ["options_file_fr_prob", "checkpoint_file"]

/-- The values a string option with a list of choices can take are words in lower case. -/
theorem choices_ok {k d v : String} {r : List String} (hl : (nlpTable b).lookup k = some (.str d r))
    (hk : k ∉ freeKeys) (hv : r = [] ∨ v ∈ r) : Word v ∧ lower v = v := by
  have hm := mem_of_lookup hl
  obtain ⟨a1, a2, a3, a4, a5, a6, a7⟩ := b
  have h : ∀ a1 a2 a3 a4 : Bool, (nlpTable ⟨a1, a2, a3, a4, false, false, false⟩).all (fun p => match p.2 with
      | .str _ r => freeKeys.contains p.1 || (!r.isEmpty && r.all (fun v => wordB v && decide (lower v = v)))
      | _ => true) = true := by decide +kernel
  have h1 : (nlpTable ⟨a1, a2, a3, a4, a5, a6, a7⟩).all (fun p => match p.2 with
      | .str _ r => freeKeys.contains p.1 || (!r.isEmpty && r.all (fun v => wordB v && decide (lower v = v)))
      | _ => true) = true := h a1 a2 a3 a4
  rw [List.all_eq_true] at h1
  have := h1 _ hm
  simp only [Bool.or_eq_true, Bool.and_eq_true, Bool.not_eq_true', List.all_eq_true, decide_eq_true_eq,
    List.contains_iff_mem] at this
  rcases this with q | ⟨q1, q2⟩
  · exact absurd q hk
  · rcases hv with hv | hv
    · rw [hv] at q1; simp at q1
    · exact ⟨word_of_wordB (q2 v hv).1, (q2 v hv).2⟩

/-- The first token of a printed line is the name. -/
theorem print_first (short : Bool) (note : String → String) (k : String) (o : Opt) (hk : Word k) :
    ∃ rest, tokens (printLine short note k o) = k :: rest := by
  refine ⟨tokens (fmtVal o ++ comment short (note k)), ?_⟩
  have : printLine short note k o = String.ofList (k.toList ++ ' ' :: (fmtVal o ++ comment short (note k)).toList) := by
    unfold printLine
    apply String.ext
    simp
  rw [this, tokens_cons hk.1 hk.2 (by decide), String.ofList_toList, String.ofList_toList]

/-- A printed line says nothing about other options. -/
theorem print_other (t : List (String × Opt)) (P : Parser) (short : Bool) (note : String → String) {k n : String}
    (o : Opt) (hn : Word n) (h : n ≠ k) : lineSays t P k (printLine short note n o) = none := by
  obtain ⟨rest, e⟩ := print_first short note n o hn
  unfold lineSays
  rw [e]
  cases rest <;> simp [h]

/-- What has to be readable for the value of option `k` to be loaded back: a number is printed without loss
and read by the parser, and the two free-form strings are lower-case words. -/
structure Readable (P : Parser) (m : Store) (k : String) : Prop where
  num : ∀ v lb ub, (m k).map Entry.o = some (.num v lb ub) → P.num (fmtNum v) = some v
  int : ∀ v lb ub, (m k).map Entry.o = some (.int v lb ub) → P.int (fmtInt v) = some v
  str : k ∈ freeKeys → ∀ v r, (m k).map Entry.o = some (.str v r) → Word v ∧ lower v = v

/-- A printed line says the value it was printed from. -/
theorem print_self (P : Parser) (short : Bool) (note : String → String) {m : Store} {k : String} {e : Entry}
    (hw : InRange true (nlpTable b) m) (hR : Readable P m k) (h : m k = some e) :
    lineSays (nlpTable b) P k (printLine short note k e.o) = some e.o := by
  have ho : (m k).map Entry.o = some e.o := by rw [h]; rfl
  obtain ⟨o, hl, hs⟩ := lookup_of_entry hw h
  have hv : Valid true e.o := hw.valid h
  obtain ⟨w1, w2⟩ := name_ok (mem_names hl)
  have hword : Word (fmtVal e.o) := by
    cases he : e.o with
    | num v lb ub => exact fmtNum_word v
    | int v lb ub => exact fmtInt_word v
    | str v r =>
      rw [he] at hs hv ho
      cases o with
      | num => simp [SameReg] at hs
      | int => simp [SameReg] at hs
      | str d r' =>
        simp only [SameReg] at hs
        subst hs
        by_cases hk : k ∈ freeKeys
        · exact (hR.str hk v _ ho).1
        · exact (choices_ok hl hk hv).1
  obtain ⟨rest, ht⟩ := C72_line_tokens short note k e.o w1 hword
  unfold lineSays
  rw [ht, hl]
  simp only [ne_eq, w2, not_false_eq_true, and_true, if_true]
  cases he : e.o with
  | num v lb ub =>
    rw [he] at hs hv ho
    cases o with
    | str => simp [SameReg] at hs
    | int => simp [SameReg] at hs
    | num d lb' ub' =>
      simp only [SameReg] at hs
      obtain ⟨rfl, rfl⟩ := hs
      simp only [fmtVal, hR.num v _ _ ho]
      cases v with
      | none => rfl
      | some q =>
        simp only [Valid] at hv
        simp [hv]
  | int v lb ub =>
    rw [he] at hs hv ho
    cases o with
    | str => simp [SameReg] at hs
    | num => simp [SameReg] at hs
    | int d lb' ub' =>
      simp only [SameReg] at hs
      obtain ⟨rfl, rfl⟩ := hs
      simp only [fmtVal, hR.int v _ _ ho]
      simp only [Valid] at hv
      simp [hv]
  | str v r =>
    rw [he] at hs hv ho
    cases o with
    | int => simp [SameReg] at hs
    | num => simp [SameReg] at hs
    | str d r' =>
      simp only [SameReg] at hs
      subst hs
      have hlow : lower v = v := by
        by_cases hk : k ∈ freeKeys
        · exact (hR.str hk v _ ho).2
        · exact (choices_ok hl hk hv).2
      simp only [fmtVal, hlow]
      simp only [Valid] at hv
      simp [hv]

theorem says_comment (t : List (String × Opt)) (P : Parser) (k : String) {l : String}
    (h : (tokens l = []) ∨ ∃ w rest, tokens l = w :: rest ∧ w.toList.head? = some '#') :
    lineSays t P k l = none := by
  unfold lineSays
  rcases h with h | ⟨w, rest, h, hw⟩
  · rw [h]
  · rw [h]
    cases rest <;> simp [hw]

theorem header_quiet (t : List (String × Opt)) (P : Parser) (k : String) :
    ∀ l ∈ ["#", "# Hiop options", "#"] ++ ["# end of Hiop options", ""], lineSays t P k l = none := by
  intro l hl
  apply says_comment
  simp only [List.cons_append, List.nil_append, List.mem_cons, List.not_mem_nil, or_false] at hl
  rcases hl with rfl | rfl | rfl | rfl | rfl
  · exact Or.inr ⟨"#", [], by decide +kernel, by decide⟩
  · exact Or.inr ⟨"#", ["Hiop", "options"], by decide +kernel, by decide⟩
  · exact Or.inr ⟨"#", [], by decide +kernel, by decide⟩
  · exact Or.inr ⟨"#", ["end", "of", "Hiop", "options"], by decide +kernel, by decide⟩
  · exact Or.inl (by decide +kernel)

/-- The lines of some of the options. -/
def someLines (note : String → String) (m : Store) (ns : List String) : List String :=
  ns.filterMap (fun k => (m k).map fun e =>
      printLine (decide (getStr m "print_options" = some "short")) note k e.o)

theorem someLines_quiet (t : List (String × Opt)) (P : Parser) (note : String → String) (m : Store) {k : String}
    {ns : List String} (hn : ∀ n ∈ ns, Word n) (hk : k ∉ ns) :
    ∀ l ∈ someLines note m ns, lineSays t P k l = none := by
  intro l hl
  simp only [someLines, List.mem_filterMap, Option.map_eq_some_iff] at hl
  obtain ⟨n, hn1, e, _, rfl⟩ := hl
  exact print_other t P _ note _ (hn n hn1) (fun h => hk (h ▸ hn1))

theorem someLines_split (note : String → String) {m : Store} {k : String} {e : Entry} (h : m k = some e)
    (A B : List String) : someLines note m (A ++ k :: B) = someLines note m A ++
      printLine (decide (getStr m "print_options" = some "short")) note k e.o :: someLines note m B := by
  simp [someLines, List.filterMap_append, h]

theorem names_nodup (b : Build) : (names (nlpTable b)).Nodup := (names_perm _).nodup_iff.2 (nlp_names b)

/-- What the listing says about an option is what the line of that option says. -/
theorem print_says_line (b : Build) (P : Parser) (note : String → String) (m : Store)
    (hw : InRange true (nlpTable b) m) (k : String) :
    fileSays (nlpTable b) P k (printStore (nlpTable b) note m) = (m k).bind fun e => lineSays (nlpTable b) P k
      (printLine (decide (getStr m "print_options" = some "short")) note k e.o) := by
  have hall : ∀ n ∈ names (nlpTable b), Word n := fun n hn => (name_ok hn).1
  rw [fileSays_eq]
  have hp : printStore (nlpTable b) note m = ["#", "# Hiop options", "#"] ++
    someLines note m (names (nlpTable b)) ++ ["# end of Hiop options", ""] := rfl
  have q1 : (["#", "# Hiop options", "#"] : List String).filterMap (lineSays (nlpTable b) P k) = [] :=
    List.filterMap_eq_nil_iff.2 (fun l hl => header_quiet _ P k l (List.mem_append_left _ hl))
  have q2 : (["# end of Hiop options", ""] : List String).filterMap (lineSays (nlpTable b) P k) = [] :=
    List.filterMap_eq_nil_iff.2 (fun l hl => header_quiet _ P k l (List.mem_append_right _ hl))
  rw [hp, List.filterMap_append, List.filterMap_append, q1, q2, List.nil_append, List.append_nil]
  rcases hm : m k with _ | e
  · rw [List.filterMap_eq_nil_iff.2]
    · rfl
    · intro l hl
      simp only [someLines, List.mem_filterMap, Option.map_eq_some_iff] at hl
      obtain ⟨n, hn1, e', he', rfl⟩ := hl
      exact print_other _ P _ note _ (hall n hn1) (fun h => by rw [h, hm] at he'; simp at he')
  · obtain ⟨o, hl, _⟩ := lookup_of_entry hw hm
    obtain ⟨A, B, hAB⟩ := List.append_of_mem (mem_names hl)
    have hnd := names_nodup b
    rw [hAB] at hnd hall ⊢
    rw [someLines_split note hm]
    have hA : k ∉ A := by
      intro h
      exact (List.nodup_append.1 hnd).2.2 k h k List.mem_cons_self rfl
    have hB : k ∉ B := (List.nodup_cons.1 (List.nodup_append.1 hnd).2.1).1
    rw [List.filterMap_append, List.filterMap_cons,
      List.filterMap_eq_nil_iff.2 (someLines_quiet _ P note m (fun n hn => hall n (by simp [hn])) hA),
      List.filterMap_eq_nil_iff.2 (someLines_quiet _ P note m (fun n hn => hall n (by simp [hn])) hB),
      Option.bind_some]
    cases lineSays (nlpTable b) P k (printLine (decide (getStr m "print_options" = some "short")) note k e.o) <;> rfl

/-- The listing that `print` writes says about every option exactly the value the option has. -/
theorem C72_print_says (b : Build) (P : Parser) (note : String → String) (m : Store)
    (hw : InRange true (nlpTable b) m) (k : String) (hR : Readable P m k) :
    fileSays (nlpTable b) P k (printStore (nlpTable b) note m) = (m k).map Entry.o := by
  rw [print_says_line b P note m hw k]
  rcases hm : m k with _ | e
  · rfl
  · rw [Option.bind_some, print_self P _ note hw hR hm]; rfl

/-- Loading the listing of any store a user can reach gives back the value of every option that the rules
never touch and whose printed value is readable.  What is missing: the options in `ruleKeys`
(`C72_reload_tolerance`, `C72_reload_refuted`), numbers with more than four digits (`C72_digits_refuted`) and
free-form strings with blanks (`C72_blank_refuted`). -/
theorem C72_reload_partial (b : Build) (P : Parser) (file : List String) (calls : List Call) (m : Store)
    (h : nlpHistory b P file calls = some m) (note : String → String) :
    ∃ m', construct (nlpTable b) (ensureNlp b) P (printStore (nlpTable b) note m) = some m' ∧
      ∀ k, k ∉ ruleKeys → Readable P m k → (m' k).map Entry.o = (m k).map Entry.o := by
  obtain ⟨m', h1, h2⟩ := C72_file_value_partial b P (printStore (nlpTable b) note m)
  have hw := (history_facts h).1
  refine ⟨m', h1, fun k hk hR => ?_⟩
  rw [h2 k hk, valueIn, C72_print_says b P note m hw k hR]
  have hn := hw k
  cases hl : (nlpTable b).lookup k with
  | none => rw [hl] at hn; simp only at hn; rw [hn]; rfl
  | some o =>
    rw [hl] at hn
    obtain ⟨e, e1, _⟩ := hn
    rw [e1]; rfl

/-- The listing names the four tolerances before `tolerance`. -/
theorem names_split {k : String} (hk : k ∈ tolKeys) :
    ∃ A B C, names (nlpTable b) = A ++ k :: B ++ "tolerance" :: C := by
  rw [names_eq]
  simp only [tolKeys, List.mem_cons, List.not_mem_nil, or_false] at hk
  have h : ∀ k ∈ ["acceptable_tolerance", "dual_tol", "cons_tol", "comp_tol"],
      names (nlpTable plain) = (names (nlpTable plain)).takeWhile (· != k) ++ k ::
        (((names (nlpTable plain)).dropWhile (· != k)).drop 1).takeWhile (· != "tolerance") ++ "tolerance" ::
        ((((names (nlpTable plain)).dropWhile (· != k)).drop 1).dropWhile (· != "tolerance")).drop 1 := by
    decide +kernel
  exact ⟨_, _, _, h k (by simpa using hk)⟩

/-- A tolerance that comes back from a listing: it is raised to `1e-8`, the default of `tolerance`, even when
`tolerance` itself is smaller. -/
theorem C72_reload_tolerance (b : Build) (P : Parser) (file : List String) (calls : List Call) (m : Store)
    (h : nlpHistory b P file calls = some m) (note : String → String) (k : String) (hk : k ∈ tolKeys) (v T : ℚ)
    (hv : getNum m k = some (some v)) (hT : getNum m "tolerance" = some (some T))
    (hR : Readable P m k) (hR' : Readable P m "tolerance") :
    ∃ m', construct (nlpTable b) (ensureNlp b) P (printStore (nlpTable b) note m) = some m' ∧
      getNum m' k = some (some (max (max v (1 / 10 ^ 8)) T)) := by
  have hw := (history_facts h).1
  have ent : ∀ {k : String} {v : ℚ}, getNum m k = some (some v) →
      ∃ e lb ub, m k = some e ∧ e.o = .num (some v) lb ub := by
    intro k v hv
    unfold getNum at hv
    split at hv
    · rename_i w lb ub f r hm
      obtain rfl := Option.some.inj hv
      exact ⟨_, lb, ub, hm, rfl⟩
    · simp at hv
  obtain ⟨e, lb, ub, e1, e2⟩ := ent hv
  obtain ⟨e', lb', ub', e1', e2'⟩ := ent hT
  have hall : ∀ n ∈ names (nlpTable b), Word n := fun n hn => (name_ok hn).1
  have hnd := names_nodup b
  obtain ⟨A, B, C, hABC⟩ := names_split (b := b) hk
  have k1 := (tolKeys_facts (b := b) hk).1
  rw [hABC] at hall hnd
  let S := decide (getStr m "print_options" = some "short")
  have hp : printStore (nlpTable b) note m =
      (["#", "# Hiop options", "#"] ++ someLines note m A) ++ printLine S note k e.o :: someLines note m B ++
        printLine S note "tolerance" e'.o :: (someLines note m C ++ ["# end of Hiop options", ""]) := by
    have : printStore (nlpTable b) note m = ["#", "# Hiop options", "#"] ++
      someLines note m (names (nlpTable b)) ++ ["# end of Hiop options", ""] := rfl
    rw [this, hABC, someLines_split note e1', someLines_split note e1]
    simp [S]
  simp only [List.append_assoc, List.cons_append, List.nodup_append, List.nodup_cons, List.mem_append,
    List.mem_cons] at hnd
  have quietT : ∀ l ∈ (["#", "# Hiop options", "#"] ++ someLines note m A) ++ someLines note m B ++
      (someLines note m C ++ ["# end of Hiop options", ""]), lineSays (nlpTable b) P "tolerance" l = none := by
    intro l hl
    simp only [List.mem_append] at hl
    rcases hl with ((hl | hl) | hl) | (hl | hl)
    · exact header_quiet _ P _ l (List.mem_append_left _ hl)
    · exact someLines_quiet _ P note m (fun n hn => hall n (by simp [hn]))
        (fun hA => hnd.2.2 _ hA _ (Or.inr (Or.inr (Or.inl rfl))) rfl) l hl
    · exact someLines_quiet _ P note m (fun n hn => hall n (by simp [hn]))
        (fun hB => hnd.2.1.2.2.2 _ hB _ (Or.inl rfl) rfl) l hl
    · exact someLines_quiet _ P note m (fun n hn => hall n (by simp [hn])) hnd.2.1.2.2.1.1 l hl
    · exact header_quiet _ P _ l (List.mem_append_right _ hl)
  have quietK : ∀ l ∈ someLines note m B ++ (someLines note m C ++ ["# end of Hiop options", ""]),
      lineSays (nlpTable b) P k l = none := by
    intro l hl
    simp only [List.mem_append] at hl
    rcases hl with hl | (hl | hl)
    · exact someLines_quiet _ P note m (fun n hn => hall n (by simp [hn]))
        (fun hB => hnd.2.1.1 (Or.inl hB)) l hl
    · exact someLines_quiet _ P note m (fun n hn => hall n (by simp [hn]))
        (fun hC => hnd.2.1.1 (Or.inr (Or.inr hC))) l hl
    · exact header_quiet _ P _ l (List.mem_append_right _ hl)
  have s1 := print_self P S note hw hR e1
  have s2 := print_self P S note hw hR' e1'
  rw [hp]
  exact C72_tolerance_last b P k hk _ _ _ _ _ v T lb ub lb' ub' (by rw [s2, e2']) (by rw [s1, e2]) quietK quietT

/-- The store of the witness: `tolerance` 1e-10 and `acceptable_tolerance` 1e-9. -/
def tightFile : List String := ["tolerance 1e-10", "acceptable_tolerance 1e-9"]

/-- The listing cannot in general be loaded back: with `tolerance` 1e-10 and `acceptable_tolerance` 1e-9 in
force, both printed without loss, loading the listing sets `acceptable_tolerance` to 1e-8. -/
theorem C72_reload_refuted : ¬ ∀ (b : Build) (P : Parser) (file : List String) (calls : List Call) (m m' : Store)
    (note : String → String) (k : String), nlpHistory b P file calls = some m →
    construct (nlpTable b) (ensureNlp b) P (printStore (nlpTable b) note m) = some m' →
    Readable P m k → Readable P m "tolerance" → getNum m' k = getNum m k := by
  intro h
  obtain ⟨m, h1, _⟩ := C26_never_aborts plain tolP tightFile []
  have a : (nlpHistory plain tolP tightFile []).map (fun m => ((m "acceptable_tolerance").map Entry.o,
      (m "tolerance").map Entry.o)) = some (some (.num (some (1 / 10 ^ 9)) (1 / 10 ^ 14) (1 / 10)),
        some (.num (some (1 / 10 ^ 10)) (1 / 10 ^ 14) (1 / 10))) := by decide +kernel
  rw [h1] at a
  simp only [Option.map_some, Option.some.injEq, Prod.mk.injEq] at a
  obtain ⟨a1, a2⟩ := a
  have r1 : Readable tolP m "acceptable_tolerance" := by
    refine ⟨fun v lb ub e => ?_, fun v lb ub e => ?_, fun e => absurd e (by decide)⟩
    · rw [a1] at e
      simp only [Option.some.injEq, Opt.num.injEq] at e
      rw [← e.1]; decide +kernel
    · rw [a1] at e; simp at e
  have r2 : Readable tolP m "tolerance" := by
    refine ⟨fun v lb ub e => ?_, fun v lb ub e => ?_, fun e => absurd e (by decide)⟩
    · rw [a2] at e
      simp only [Option.some.injEq, Opt.num.injEq] at e
      rw [← e.1]; decide +kernel
    · rw [a2] at e; simp at e
  obtain ⟨m', g1, g2⟩ := C72_reload_tolerance plain tolP tightFile [] m h1 (fun _ => "") "acceptable_tolerance"
    (by decide) _ _ (getNum_of_o a1) (getNum_of_o a2) r1 r2
  have := h plain tolP tightFile [] m m' (fun _ => "") "acceptable_tolerance" h1 g1 r1 r2
  rw [g2, getNum_of_o a1] at this
  exact absurd this (by decide +kernel)

/-- A faithful reader of the two tokens of the next witness. -/
def tauP : Parser where
  num s := if s = "0.99996" then some (some (99996 / 10 ^ 5)) else if s = "1.000e+00" then some (some 1) else none
  int _ := none

/-- What loading a listing gives to an option outside `ruleKeys`. -/
theorem reload_value (b : Build) (P : Parser) (file : List String) (calls : List Call) (note : String → String)
    (k : String) (hk : k ∉ ruleKeys) (e : Entry) (o : Opt)
    (h : (nlpHistory b P file calls).map (fun m => (m k, getStr m "print_options")) =
      some (some e, some "no"))
    (ho : (lineSays (nlpTable b) P k (printLine false note k e.o)).or ((nlpTable b).lookup k) = some o) :
    ∃ m m', nlpHistory b P file calls = some m ∧
      construct (nlpTable b) (ensureNlp b) P (printStore (nlpTable b) note m) = some m' ∧
      (m k).map Entry.o = some e.o ∧ (m' k).map Entry.o = some o := by
  obtain ⟨m, h1, _⟩ := C26_never_aborts b P file calls
  obtain ⟨m', g1, g2⟩ := C72_file_value_partial b P (printStore (nlpTable b) note m)
  rw [h1] at h
  simp only [Option.map_some, Option.some.injEq, Prod.mk.injEq] at h
  refine ⟨m, m', h1, g1, by rw [h.1]; rfl, ?_⟩
  rw [g2 k hk, valueIn, print_says_line b P note m (history_facts h1).1 k, h.1, h.2, Option.bind_some, ← ho]
  simp

/-- Only four digits are printed: `tau_min` 0.99996 is printed as `1.000e+00`, which is out of range when it
is loaded, so that the option falls back to its default 0.99. -/
theorem C72_digits_refuted :
    ∃ m m', nlpHistory plain tauP ["tau_min 0.99996"] [] = some m ∧
      construct (nlpTable plain) (ensureNlp plain) tauP (printStore (nlpTable plain) (fun _ => "") m) = some m' ∧
      getNum m "tau_min" = some (some (99996 / 10 ^ 5)) ∧ getNum m' "tau_min" = some (some (99 / 100)) := by
  obtain ⟨m, m', h1, h2, h3, h4⟩ := reload_value plain tauP ["tau_min 0.99996"] [] (fun _ => "") "tau_min"
    (by decide) ⟨.num (some (99996 / 10 ^ 5)) (9 / 10) (99999 / 10 ^ 5), true, false⟩
    (.num (some (99 / 100)) (9 / 10) (99999 / 10 ^ 5)) (by decide +kernel) (by decide +kernel)
  exact ⟨m, m', h1, h2, getNum_of_o h3, getNum_of_o h4⟩

/-- A free-form string with a blank, which only a run-time call can set, comes back cut at the blank. -/
theorem C72_blank_refuted :
    ∃ m m', nlpHistory plain tauP [] [.str "options_file_fr_prob" "my options" false] = some m ∧
      construct (nlpTable plain) (ensureNlp plain) tauP (printStore (nlpTable plain) (fun _ => "") m) = some m' ∧
      (m "options_file_fr_prob").map Entry.o = some (.str "my options" []) ∧
      (m' "options_file_fr_prob").map Entry.o = some (.str "my" []) :=
  reload_value plain tauP [] [.str "options_file_fr_prob" "my options" false] (fun _ => "") _
    (by decide) ⟨.str "my options" [], false, false⟩ _ (by decide +kernel) (by decide +kernel)

/-- An empty string comes back as the comment sign of the long listing. -/
theorem C72_empty_refuted :
    ∃ m m', nlpHistory plain tauP [] [.str "options_file_fr_prob" "" false] = some m ∧
      construct (nlpTable plain) (ensureNlp plain) tauP (printStore (nlpTable plain) (fun _ => "") m) = some m' ∧
      (m "options_file_fr_prob").map Entry.o = some (.str "" []) ∧
      (m' "options_file_fr_prob").map Entry.o = some (.str "#" []) :=
  reload_value plain tauP [] [.str "options_file_fr_prob" "" false] (fun _ => "") _
    (by decide) ⟨.str "" [], false, false⟩ _ (by decide +kernel) (by decide +kernel)

/-- Listing an option makes it "user defined" when it is loaded: `KKTLinsys` xdycyd chosen while `Hessian`
was never mentioned is in force, but is replaced by `auto` when the listing is loaded. -/
theorem C72_kkt_refuted :
    ((nlpHistory plain tauP ["KKTLinsys xdycyd"] []).bind fun m =>
      (construct (nlpTable plain) (ensureNlp plain) tauP (printStore (nlpTable plain) (fun _ => "") m)).map fun m' =>
        (getStr m "KKTLinsys", getStr m' "KKTLinsys")) =
      some (some "xdycyd", some "auto") := by decide +kernel

/-- A non-trivial case of `C72_reload_partial`: the number 1/2 is printed as `5.000e-01` and is readable. -/
example : ∃ m, nlpHistory plain ⟨fun s => if s = "5e-1" ∨ s = "5.000e-01" then some (some (1 / 2)) else none,
      fun _ => none⟩ ["mu0 5e-1"] [] = some m ∧ getNum m "mu0" = some (some (1 / 2)) ∧
      Readable ⟨fun s => if s = "5e-1" ∨ s = "5.000e-01" then some (some (1 / 2)) else none, fun _ => none⟩ m
        "mu0" := by
  obtain ⟨m, h1, _⟩ := C26_never_aborts plain
    ⟨fun s => if s = "5e-1" ∨ s = "5.000e-01" then some (some (1 / 2)) else none, fun _ => none⟩ ["mu0 5e-1"] []
  have a : (nlpHistory plain ⟨fun s => if s = "5e-1" ∨ s = "5.000e-01" then some (some (1 / 2)) else none,
      fun _ => none⟩ ["mu0 5e-1"] []).map (fun m => (m "mu0").map Entry.o) =
      some (some (.num (some (1 / 2)) (1 / 10 ^ 16) 1000)) := by decide +kernel
  rw [h1] at a
  simp only [Option.map_some, Option.some.injEq] at a
  refine ⟨m, h1, getNum_of_o a, fun v lb ub e => ?_, fun v lb ub e => ?_, fun e => absurd e (by decide)⟩
  · rw [a] at e
    simp only [Option.some.injEq, Opt.num.injEq] at e
    rw [← e.1]; decide +kernel
  · rw [a] at e; simp at e

end Hiop.Options
