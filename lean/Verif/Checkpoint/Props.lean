import Verif.Checkpoint.Lemmas
import Mathlib.Data.Rat.Floor
import Mathlib.Tactic.Linarith

/-!
# C47: checkpoints restore the solver

The specification is `saved` (which arrays a checkpoint consists of, by view name), `viewData` (the
elements of a view) and the solver state `Alg` itself.
-/

namespace Hiop.Checkpoint

set_option linter.unusedSectionVars false

variable {K : Type*}

/-! ### Specification -/

/-- The arrays of the solver state that a checkpoint holds, with the names of their views. -/
def arrays (a : Alg K) : List (String × List K) :=
  [("alg_iterate_x", a.it.x), ("alg_iterate_d", a.it.d),
   ("alg_iterate_sxl", a.it.sxl), ("alg_iterate_sxu", a.it.sxu),
   ("alg_iterate_sdl", a.it.sdl), ("alg_iterate_sdu", a.it.sdu),
   ("alg_iterate_yc", a.it.yc), ("alg_iterate_yd", a.it.yd),
   ("alg_iterate_zl", a.it.zl), ("alg_iterate_zu", a.it.zu),
   ("alg_iterate_vl", a.it.vl), ("alg_iterate_vu", a.it.vu),
   ("Hess_quasiNewton_prev_iterx", a.hqn.itPrev.x),
   ("Hess_quasiNewton_prev_iterd", a.hqn.itPrev.d),
   ("Hess_quasiNewton_prev_itersxl", a.hqn.itPrev.sxl),
   ("Hess_quasiNewton_prev_itersxu", a.hqn.itPrev.sxu),
   ("Hess_quasiNewton_prev_itersdl", a.hqn.itPrev.sdl),
   ("Hess_quasiNewton_prev_itersdu", a.hqn.itPrev.sdu),
   ("Hess_quasiNewton_prev_iteryc", a.hqn.itPrev.yc),
   ("Hess_quasiNewton_prev_iteryd", a.hqn.itPrev.yd),
   ("Hess_quasiNewton_prev_iterzl", a.hqn.itPrev.zl),
   ("Hess_quasiNewton_prev_iterzu", a.hqn.itPrev.zu),
   ("Hess_quasiNewton_prev_itervl", a.hqn.itPrev.vl),
   ("Hess_quasiNewton_prev_itervu", a.hqn.itPrev.vu),
   ("Hess_quasiNewton_prev_grad", a.hqn.gradPrev),
   ("Hess_quasiNewton_prev_Jacc", a.hqn.jacC),
   ("Hess_quasiNewton_prev_Jacd", a.hqn.jacD),
   ("Hess_quasiNewton_St", a.hqn.St.dat),
   ("Hess_quasiNewton_Yt", a.hqn.Yt.dat),
   ("Hess_quasiNewton_D", a.hqn.D),
   ("Hess_quasiNewton_L", a.hqn.L)]

/-- Everything a checkpoint holds. -/
def saved [Field K] (version : K) (a : Alg K) : List (String × List K) :=
  arrays a ++
  [("Hess_quasiNewton_params",
      [(a.hqn.lmax : K), (a.hqn.lcurr : K), a.hqn.sigma, a.hqn.sigma0,
        if a.hqn.changed then 1 else 0]),
   ("alg_params", [a.mu, (a.iterTotal : K), (a.nranks : K), version])]

/-- The sizes of the views of the quasi-Newton memory for `l` pairs and `n` variables. -/
def memSizes (l n : ℕ) : List (String × ℕ) :=
  [("Hess_quasiNewton_St", l * n), ("Hess_quasiNewton_Yt", l * n), ("Hess_quasiNewton_D", l),
   ("Hess_quasiNewton_L", l * l)]

/-- No view of the group visits the same memory twice. -/
def Strided (g : Group K) : Prop := ∀ name v, g name = some v → v.stride ≠ 0

/-- The memory of the quasi-Newton Hessian holds `lcurr` pairs. -/
structure MemOk (h : Hqn K) : Prop where
  nonneg : 0 ≤ h.lcurr
  stRows : (h.St.rows : ℤ) = h.lcurr
  ytRows : (h.Yt.rows : ℤ) = h.lcurr
  stCols : h.St.cols = h.nloc
  ytCols : h.Yt.cols = h.nloc
  stDat : h.St.dat.length = h.lcurr.toNat * h.nloc
  ytDat : h.Yt.dat.length = h.lcurr.toNat * h.nloc
  dLen : h.D.length = h.lcurr.toNat
  lLen : h.L.length = h.lcurr.toNat * h.lcurr.toNat

/-- The vectors of two iterates have the same sizes. -/
structure SameSize (i j : ItV K) : Prop where
  x : i.x.length = j.x.length
  d : i.d.length = j.d.length
  sxl : i.sxl.length = j.sxl.length
  sxu : i.sxu.length = j.sxu.length
  sdl : i.sdl.length = j.sdl.length
  sdu : i.sdu.length = j.sdu.length
  yc : i.yc.length = j.yc.length
  yd : i.yd.length = j.yd.length
  zl : i.zl.length = j.zl.length
  zu : i.zu.length = j.zu.length
  vl : i.vl.length = j.vl.length
  vu : i.vu.length = j.vu.length

/-- Two solvers for problems with the same dimensions, on the same number of ranks. -/
structure SameProblem (a b : Alg K) : Prop where
  it : SameSize a.it b.it
  prev : SameSize a.hqn.itPrev b.hqn.itPrev
  grad : a.hqn.gradPrev.length = b.hqn.gradPrev.length
  jacC : a.hqn.jacC.length = b.hqn.jacC.length
  jacD : a.hqn.jacD.length = b.hqn.jacD.length
  nloc : a.hqn.nloc = b.hqn.nloc
  nranks : a.nranks = b.nranks

/-! ### The slots and the specification -/

/-- All slots of a checkpoint, in the order of the calls. -/
def allSlots [Field K] (version : K) : List (Slot (Alg K) K) :=
  currSlots ++ [⟨"Hess_quasiNewton_params", fun a => hqnParams a.hqn, fun _ a => a⟩] ++
      hqnSlots ++ [⟨"alg_params", algParams version, fun _ a => a⟩]

theorem allSlots_names [Field K] (version : K) :
    ((allSlots version).map Slot.name).Nodup := by
  have : (allSlots version).map Slot.name =
      (["x", "d", "sxl", "sxu", "sdl", "sdu", "yc", "yd", "zl", "zu", "vl", "vu"].map
        ("alg_iterate_" ++ ·)) ++ ["Hess_quasiNewton_params"] ++
      (["x", "d", "sxl", "sxu", "sdl", "sdu", "yc", "yd", "zl", "zu", "vl", "vu"].map
        ("Hess_quasiNewton_prev_iter" ++ ·)) ++
      ["Hess_quasiNewton_prev_grad", "Hess_quasiNewton_prev_Jacc", "Hess_quasiNewton_prev_Jacd",
        "Hess_quasiNewton_St", "Hess_quasiNewton_Yt", "Hess_quasiNewton_D", "Hess_quasiNewton_L",
        "alg_params"] := rfl
  rw [this]
  decide +kernel

theorem currSlots_arrays (a : Alg K) :
    (currSlots (K := K)).map (fun t => (t.name, t.get a)) = (arrays a).take 12 := by
  rfl

theorem hqnSlots_arrays (a : Alg K) :
    (hqnSlots (K := K)).map (fun t => (t.name, t.get a)) = (arrays a).drop 12 := by
  rfl

theorem mem_saved [Field K] (version : K) (a : Alg K) (p : String × List K) :
    p ∈ saved version a ↔ ∃ t ∈ allSlots version, p = (t.name, t.get a) := by
  have h : ∀ ts : List (Slot (Alg K) K), (∃ t ∈ ts, p = (t.name, t.get a)) ↔
      p ∈ ts.map (fun t => (t.name, t.get a)) := by
    intro ts
    simp [List.mem_map, eq_comm]
  rw [h, allSlots]
  simp only [List.map_append, currSlots_arrays, hqnSlots_arrays, List.map_cons, List.map_nil,
    List.mem_append, saved]
  rw [← List.take_append_drop 12 (arrays a), List.mem_append]
  simp only [List.take_append_drop]
  have h5 : hqnParams a.hqn = [(a.hqn.lmax : K), (a.hqn.lcurr : K), a.hqn.sigma, a.hqn.sigma0,
        if a.hqn.changed then 1 else 0] := rfl
  have h6 : algParams version a = [a.mu, (a.iterTotal : K), (a.nranks : K), version] := rfl
  rw [h5, h6]
  simp only [List.mem_cons, List.not_mem_nil, or_false]
  tauto

theorem currSlots_separate : Separate (currSlots (K := K)) := by
  constructor
  · simp [currSlots, itSlots]
  · simp [currSlots, itSlots]

theorem hqnSlots_separate : Separate (hqnSlots (K := K)) := by
  constructor
  · simp [hqnSlots, itSlots]
  · simp [hqnSlots, itSlots]

section
variable [Field K]

/-! ### C47: saving -/

/-- **C47, saving.** Saving into a group succeeds exactly when no view already in the group has a
size other than that of the array to be stored in it; then every array of the checkpoint is in the
view of its name, and no other view has changed. A failure is reported. -/
theorem C47_save (version : K) (g : Group K) (a : Alg K) (hs : Strided g) :
    ((save version g a).2 = none ↔
      ∀ p ∈ saved version a, ∀ v, g p.1 = some v → v.num = p.2.length) ∧
    ((save version g a).2 = none →
      (∀ p ∈ saved version a, viewData (save version g a).1 p.1 = some p.2) ∧
      (∀ name, name ∉ (saved version a).map Prod.fst → (save version g a).1 name = g name)) := by
  have hsave : save version g a = saveSlots a (allSlots version) g := rfl
  have hn := allSlots_names version
  have hst : ∀ t ∈ allSlots version, ∀ v, g t.name = some v → v.stride ≠ 0 :=
    fun t _ v hv => hs t.name v hv
  have hfit : (∀ p ∈ saved version a, ∀ v, g p.1 = some v → v.num = p.2.length) ↔
      ∀ t ∈ allSlots version, Fits g t.name (t.get a).length := by
    constructor
    · intro h t ht
      exact h (t.name, t.get a) ((mem_saved version a _).2 ⟨t, ht, rfl⟩)
    · intro h p hp
      obtain ⟨t, ht, rfl⟩ := (mem_saved version a p).1 hp
      exact h t ht
  rw [hfit, hsave]
  have key : (saveSlots a (allSlots version) g).2 = none →
      ∀ t ∈ allSlots version, Fits g t.name (t.get a).length := by
    intro h
    by_contra hc
    push Not at hc
    obtain ⟨t, ht, hc⟩ := hc
    obtain ⟨g', name, e⟩ := saveSlots_fails a (allSlots version) g hn ⟨t, ht, hc⟩
    rw [e] at h
    cases h
  refine ⟨⟨key, fun h => ?_⟩, fun h => ?_⟩
  · obtain ⟨g', e, _⟩ := saveSlots_ok a (allSlots version) g hn h hst
    rw [e]
  · obtain ⟨g', e, e2, e3⟩ := saveSlots_ok a (allSlots version) g hn (key h) hst
    rw [e]
    refine ⟨?_, ?_⟩
    · intro p hp
      obtain ⟨t, ht, rfl⟩ := (mem_saved version a p).1 hp
      exact e2 t ht
    · intro name hname
      refine e3 name fun hc => hname ?_
      obtain ⟨t, ht, rfl⟩ := List.mem_map.1 hc
      exact List.mem_map.2 ⟨(t.name, t.get a), (mem_saved version a _).2 ⟨t, ht, rfl⟩, rfl⟩

/-- Saving into an empty group, as `save_state_to_file` does, always succeeds. -/
theorem C47_save_file (version : K) (a : Alg K) :
    ∃ g, saveFile version a = .ok g ∧ Strided (fun _ => none : Group K) ∧
      ∀ p ∈ saved version a, viewData g p.1 = some p.2 := by
  have hs : Strided (fun _ => none : Group K) := fun _ _ h => by cases h
  obtain ⟨h1, h2⟩ := C47_save version (fun _ => none) a hs
  have h3 := h1.2 (fun p _ v hv => by cases hv)
  refine ⟨(save version (fun _ => none) a).1, ?_, hs, (h2 h3).1⟩
  unfold saveFile
  rcases hsv : save version (fun _ => none) a with ⟨g, e⟩
  rw [hsv] at h3
  simp only at h3
  subst h3
  rfl

/-! ### C47: loading -/

variable [LinearOrder K] [IsStrictOrderedRing K] [FloorRing K]

theorem toInt_intCast (z : ℤ) : toInt (z : K) = z := by
  unfold toInt
  split_ifs
  · exact Int.floor_intCast z
  · exact Int.ceil_intCast z

theorem toInt_natCast (n : ℕ) : toInt (n : K) = n := by
  simpa using toInt_intCast (K := K) n

/-- The steps of a successful load. -/
theorem load_ok {g : Group K} {a a' : Alg K} (h : load g a = (a', none)) :
    ∃ m it r v l c s s0 ch, viewData g "alg_params" = some [m, it, r, v] ∧
      viewData g "Hess_quasiNewton_params" = some [l, c, s, s0, ch] ∧
      toInt r = a.nranks ∧
      ∃ b : Alg K, loadSlots g currSlots
          { a with apiLoad := true, mu := m, iterTotal := toInt it } = (b, none) ∧
      ∃ h, allocForLimitedMem b.hqn (toInt c) = some h ∧
        loadSlots g hqnSlots { b with hqn := { h with
          lmax := toInt l, lcurr := toInt c, sigma := s, sigma0 := s0
          changed := decide (ch ≠ 0) } } = (a', none) := by
  unfold load at h
  dsimp only at h
  rcases h1 : copyArrayFromView g "alg_params" 4 with e | p
  · rw [h1] at h; simp at h
  rw [h1] at h
  obtain ⟨hp, hl⟩ := copyArrayFromView_ok_iff.1 h1
  match p, hl with
  | [m, it, r, v], _ =>
  simp only [List.getD_cons_zero, List.getD_cons_succ] at h
  split_ifs at h with hr
  · simp at h
  rcases h2 : loadSlots g currSlots { a with apiLoad := true, mu := m, iterTotal := toInt it } with
    ⟨b, e⟩
  rw [h2] at h
  rcases e with _ | e
  swap
  · simp at h
  simp only at h
  rcases h3 : copyArrayFromView g "Hess_quasiNewton_params" 5 with e | q
  · rw [h3] at h; simp at h
  rw [h3] at h
  obtain ⟨hq, hl'⟩ := copyArrayFromView_ok_iff.1 h3
  match q, hl' with
  | [l, c, s, s0, ch], _ =>
  simp only [List.getD_cons_zero, List.getD_cons_succ] at h
  rcases h4 : allocForLimitedMem b.hqn (toInt c) with _ | hh
  · rw [h4] at h; simp at h
  rw [h4] at h
  exact ⟨m, it, r, v, l, c, s, s0, ch, hp, hq, by simpa using hr, b, h2, hh, h4, h⟩

theorem currSlots_frame (g : Group K) (a : Alg K) :
    (loadSlots g currSlots a).1.hqn = a.hqn ∧ (loadSlots g currSlots a).1.mu = a.mu ∧
      (loadSlots g currSlots a).1.iterTotal = a.iterTotal ∧
      (loadSlots g currSlots a).1.nranks = a.nranks ∧
      (loadSlots g currSlots a).1.apiLoad = a.apiLoad :=
  ⟨loadSlots_frame g (fun a : Alg K => a.hqn) _ _ (by simp [currSlots, itSlots]),
   loadSlots_frame g (fun a : Alg K => a.mu) _ _ (by simp [currSlots, itSlots]),
   loadSlots_frame g (fun a : Alg K => a.iterTotal) _ _ (by simp [currSlots, itSlots]),
   loadSlots_frame g (fun a : Alg K => a.nranks) _ _ (by simp [currSlots, itSlots]),
   loadSlots_frame g (fun a : Alg K => a.apiLoad) _ _ (by simp [currSlots, itSlots])⟩

/-- What the slots of the quasi-Newton Hessian do not touch. -/
def hqnRest (a : Alg K) :=
  (a.it, a.mu, a.iterTotal, a.nranks, a.apiLoad, a.hqn.nloc, a.hqn.lmax, a.hqn.lcurr, a.hqn.sigma,
    a.hqn.sigma0, a.hqn.changed, a.hqn.St.rows, a.hqn.St.cols, a.hqn.St.cap, a.hqn.Yt.rows,
    a.hqn.Yt.cols, a.hqn.Yt.cap)

theorem hqnSlots_frame (g : Group K) (a : Alg K) :
    hqnRest (loadSlots g hqnSlots a).1 = hqnRest a :=
  loadSlots_frame g hqnRest _ _ (by simp [hqnSlots, itSlots, hqnRest])

theorem alloc_same {h h' : Hqn K} {len : ℤ} (e : allocForLimitedMem h len = some h') :
    h'.nloc = h.nloc ∧ h'.itPrev = h.itPrev ∧ h'.gradPrev = h.gradPrev ∧ h'.jacC = h.jacC ∧
      h'.jacD = h.jacD := by
  unfold allocForLimitedMem at e
  split_ifs at e
  · cases e; exact ⟨rfl, rfl, rfl, rfl, rfl⟩
  · split at e
    · cases e
    · cases e; exact ⟨rfl, rfl, rfl, rfl, rfl⟩

/-- After the allocation the memory has the requested size. -/
theorem alloc_memOk {h h' : Hqn K} {len lm : ℤ} {s s0 : K} {ch : Bool}
    (hm : h.lcurr < 0 ∨ MemOk h) (e : allocForLimitedMem h len = some h') :
    MemOk { h' with lmax := lm, lcurr := len, sigma := s, sigma0 := s0, changed := ch } := by
  unfold allocForLimitedMem at e
  split_ifs at e with h1 h2
  · simp only [Option.some.injEq] at e
    subst e
    rcases hm with hm | hm
    · omega
    · exact ⟨h1 ▸ hm.nonneg, h1 ▸ hm.stRows, h1 ▸ hm.ytRows, hm.stCols, hm.ytCols, h1 ▸ hm.stDat,
        h1 ▸ hm.ytDat, h1 ▸ hm.dLen, h1 ▸ hm.lLen⟩
  · unfold Mem.alloc at e
    split at e
    · cases e
    · rename_i M hM
      simp only at hM
      split_ifs at hM with h3 h4
      all_goals
        cases hM
        cases e
        exact ⟨by simpa using by omega, by simpa using by omega, by simpa using by omega, rfl, rfl,
          by simp, by simp, by simp, by simp⟩

/-- **C47, a load that succeeds is faithful.** If loading a group, whatever its origin, reports no
error then every array of the solver state holds the elements of the view of its name, the scalars
are those of the two parameter views, the number of ranks is the one the checkpoint was made on, the
sizes of the arrays of the problem have not changed, and the quasi-Newton memory is well formed. -/
theorem C47_load_exact (g : Group K) (a a' : Alg K) (hm : a.hqn.lcurr < 0 ∨ MemOk a.hqn)
    (h : load g a = (a', none)) :
    (∀ p ∈ arrays a', viewData g p.1 = some p.2) ∧
    (∃ it r v, viewData g "alg_params" = some [a'.mu, it, r, v] ∧ a'.iterTotal = toInt it ∧
      toInt r = a'.nranks) ∧
    (∃ l c ch, viewData g "Hess_quasiNewton_params" = some [l, c, a'.hqn.sigma, a'.hqn.sigma0, ch] ∧
      a'.hqn.lmax = toInt l ∧ a'.hqn.lcurr = toInt c ∧ (a'.hqn.changed ↔ ch ≠ 0)) ∧
    SameProblem a' a ∧ MemOk a'.hqn ∧ a'.apiLoad = true := by
  obtain ⟨m, it, r, v, l, c, s, s0, ch, e1, e2, hr, b, e3, hh, e4, e5⟩ := load_ok h
  have f1 := currSlots_frame g { a with apiLoad := true, mu := m, iterTotal := toInt it }
  have i1 := loadSlots_holds g currSlots { a with apiLoad := true, mu := m, iterTotal := toInt it }
    currSlots_separate (by rw [e3])
  have n1 := (loadSlots_ok_iff g currSlots { a with
    apiLoad := true, mu := m, iterTotal := toInt it } currSlots_separate).1 (by rw [e3])
  rw [e3] at f1 i1
  have f2 := hqnSlots_frame g { b with hqn := { hh with
          lmax := toInt l, lcurr := toInt c, sigma := s, sigma0 := s0
          changed := decide (ch ≠ 0) } }
  have i2 := loadSlots_holds g hqnSlots _ hqnSlots_separate (congrArg Prod.snd e5)
  have n2 := (loadSlots_ok_iff g hqnSlots _ hqnSlots_separate).1 (congrArg Prod.snd e5)
  rw [e5] at f2 i2
  simp only at f1 i1 i2 n1 n2
  obtain ⟨fh, fmu, fit, fnr, fapi⟩ := f1
  simp only [hqnRest, Prod.mk.injEq] at f2
  obtain ⟨g1, g2, g3, g4, g5, g6, g7, g8, g9, g10, g11, g12, g13, g14, g15, g16, g17⟩ := f2
  obtain ⟨a1, a2, a3, a4, a5⟩ := alloc_same e4
  have mo := alloc_memOk (lm := toInt l) (s := s) (s0 := s0) (ch := decide (ch ≠ 0))
    (fh ▸ hm) e4
  -- sizes
  have len1 : ∀ t ∈ currSlots (K := K), (t.get b).length = (t.get a).length := by
    intro t ht
    obtain ⟨d, hd, hl⟩ := n1 t ht
    rw [i1 t ht] at hd
    cases hd
    rw [hl]
    revert t ht
    simp [currSlots, itSlots]
  have len2 : ∀ t ∈ hqnSlots (K := K), (t.get a').length = (t.get { b with hqn := { hh with
          lmax := toInt l, lcurr := toInt c, sigma := s, sigma0 := s0
          changed := decide (ch ≠ 0) } }).length := by
    intro t ht
    obtain ⟨d, hd, hl⟩ := n2 t ht
    rw [i2 t ht] at hd
    cases hd
    exact hl
  refine ⟨?_, ?_, ?_, ?_, ?_, ?_⟩
  · intro p hp
    rw [← List.take_append_drop 12 (arrays a'), List.mem_append, ← currSlots_arrays,
      ← hqnSlots_arrays] at hp
    rcases hp with hp | hp
    · obtain ⟨t, ht, rfl⟩ := List.mem_map.1 hp
      have : t.get a' = t.get b := by
        revert t ht
        simp [currSlots, itSlots, g1]
      simp only [this, i1 t ht]
    · obtain ⟨t, ht, rfl⟩ := List.mem_map.1 hp
      exact i2 t ht
  · exact ⟨it, r, v, by rw [g2, fmu, e1], by rw [g3, fit], by rw [g4, fnr, hr]⟩
  · exact ⟨l, c, ch, by rw [g9, g10, e2], g7, g8, by rw [g11]; simp⟩
  · simp only [currSlots, itSlots, List.mem_cons, List.not_mem_nil, or_false, forall_eq_or_imp,
      forall_eq] at len1
    simp only [hqnSlots, itSlots, List.mem_append, List.mem_cons, List.not_mem_nil, or_false,
      or_assoc, forall_eq_or_imp, forall_eq] at len2
    obtain ⟨l1, l2, l3, l4, l5, l6, l7, l8, l9, l10, l11, l12⟩ := len1
    obtain ⟨p1, p2, p3, p4, p5, p6, p7, p8, p9, p10, p11, p12, p13, p14, p15, p16, p17, p18, p19⟩ :=
      len2
    rw [a2, fh] at p1 p2 p3 p4 p5 p6 p7 p8 p9 p10 p11 p12
    rw [a3, fh] at p13
    rw [a4, fh] at p14
    rw [a5, fh] at p15
    exact ⟨by rw [g1]; exact ⟨l1, l2, l3, l4, l5, l6, l7, l8, l9, l10, l11, l12⟩,
      ⟨p1, p2, p3, p4, p5, p6, p7, p8, p9, p10, p11, p12⟩, p13, p14, p15,
      by rw [g6, a1, fh], by rw [g4, fnr]⟩
  · simp only [hqnSlots, itSlots, List.mem_append, List.mem_cons, List.not_mem_nil, or_false,
      or_assoc, forall_eq_or_imp, forall_eq] at len2
    obtain ⟨p1, p2, p3, p4, p5, p6, p7, p8, p9, p10, p11, p12, p13, p14, p15, p16, p17, p18, p19⟩ :=
      len2
    exact ⟨by rw [g8]; exact mo.nonneg, by rw [g8, g12]; exact mo.stRows,
      by rw [g8, g15]; exact mo.ytRows, by rw [g13, g6]; exact mo.stCols,
      by rw [g16, g6]; exact mo.ytCols, by rw [g8, g6, p16]; exact mo.stDat,
      by rw [g8, g6, p17]; exact mo.ytDat, by rw [g8, p18]; exact mo.dLen,
      by rw [g8, p19]; exact mo.lLen⟩
  · rw [g5, fapi]

/-- **C47, bad checkpoints are refused.** Loading reports an error when a view of the checkpoint is
missing, when a view of the iterate, the previous iterate or the previous derivatives has the wrong
size, when a view of the quasi-Newton memory does not have the size for the number of pairs stored in
the checkpoint, and when the checkpoint was made on another number of ranks. -/
theorem C47_rejects (g : Group K) (a : Alg K) (hm : a.hqn.lcurr < 0 ∨ MemOk a.hqn)
    (bad : (∃ p ∈ saved 0 a, viewData g p.1 = none) ∨
      (∃ p ∈ (arrays a).take 27, ∃ d, viewData g p.1 = some d ∧ d.length ≠ p.2.length) ∨
      (∃ q d, viewData g "Hess_quasiNewton_params" = some q ∧
        ∃ p ∈ memSizes (toInt (q.getD 1 0)).toNat a.hqn.nloc,
          viewData g p.1 = some d ∧ d.length ≠ p.2) ∨
      (∃ d, viewData g "alg_params" = some d ∧ toInt (d.getD 2 0) ≠ a.nranks)) :
    (load g a).2 ≠ none := by
  intro hok
  rcases hL : load g a with ⟨a', e⟩
  rw [hL] at hok
  simp only at hok
  subst hok
  obtain ⟨h1, ⟨it, r, v, h2, _, h2'⟩, ⟨l, c, ch, h3, _, hc, _⟩, h4, h5, _⟩ :=
    C47_load_exact g a a' hm hL
  rcases bad with ⟨p, hp, hv⟩ | ⟨p, hp, d, hv, hd⟩ | ⟨q, d, hq, p, hp, hv, hd⟩ | ⟨d, hv, hd⟩
  · have : ∃ q ∈ saved 0 a', q.1 = p.1 := by
      have hnames : (saved 0 a').map Prod.fst = (saved (K := K) 0 a).map Prod.fst := rfl
      have : p.1 ∈ (saved 0 a').map Prod.fst := by
        rw [hnames]; exact List.mem_map.2 ⟨p, hp, rfl⟩
      exact List.mem_map.1 this
    obtain ⟨q, hq, hqp⟩ := this
    rw [← hqp] at hv
    rcases List.mem_append.1 hq with hq | hq
    · rw [h1 q hq] at hv; cases hv
    · simp only [List.mem_cons, List.not_mem_nil, or_false] at hq
      rcases hq with rfl | rfl
      · rw [h3] at hv; cases hv
      · rw [h2] at hv; cases hv
  · have key : ∀ p ∈ (arrays a).take 27, ∃ q ∈ arrays a', q.1 = p.1 ∧ q.2.length = p.2.length := by
      obtain ⟨⟨l1, l2, l3, l4, l5, l6, l7, l8, l9, l10, l11, l12⟩,
        ⟨p1, p2, p3, p4, p5, p6, p7, p8, p9, p10, p11, p12⟩, p13, p14, p15, _, _⟩ := h4
      simp only [arrays, List.take_succ_cons, List.take_zero, List.mem_cons, List.not_mem_nil,
        or_false, forall_eq_or_imp, forall_eq, exists_eq_or_imp, exists_eq_left]
      simp [*]
    obtain ⟨q, hq, e1, e2⟩ := key p hp
    have := h1 q hq
    rw [e1, hv] at this
    cases this
    exact hd e2
  · rw [h3] at hq
    cases hq
    simp only [List.getD_cons_zero, List.getD_cons_succ] at hp
    rw [← hc, ← h4.nloc] at hp
    have key : ∀ p ∈ memSizes a'.hqn.lcurr.toNat a'.hqn.nloc,
        ∃ q ∈ arrays a', q.1 = p.1 ∧ q.2.length = p.2 := by
      have m1 := h5.stDat
      have m2 := h5.ytDat
      have m3 := h5.dLen
      have m4 := h5.lLen
      simp only [memSizes, arrays, List.mem_cons, List.not_mem_nil,
        or_false, forall_eq_or_imp, forall_eq, exists_eq_or_imp, exists_eq_left]
      simp [*]
    obtain ⟨q, hq, e1, e2⟩ := key p hp
    have := h1 q hq
    rw [e1, hv] at this
    cases this
    exact hd e2
  · rw [h2] at hv
    cases hv
    simp only [List.getD_cons_zero, List.getD_cons_succ] at hd
    exact hd (by rw [h2', h4.nranks])

theorem alloc_ok {h : Hqn K} {len : ℤ} (hm : h.lcurr < 0 ∨ MemOk h) (h0 : 0 ≤ len)
    (hcap : h.lcurr = len ∨ len ≤ h.lmax) : ∃ h', allocForLimitedMem h len = some h' ∧
      h'.St.cap = (if h.lcurr = len then h.St.cap else h.lmax.toNat) ∧
      h'.Yt.cap = (if h.lcurr = len then h.Yt.cap else h.lmax.toNat) := by
  unfold allocForLimitedMem
  by_cases h1 : h.lcurr = len
  · rw [if_pos h1]
    rcases hm with hm | hm
    · omega
    · rw [if_pos (by have := hm.dLen; have := hm.nonneg; omega)]
      exact ⟨h, rfl, by rw [if_pos h1], by rw [if_pos h1]⟩
  · rw [if_neg h1]
    unfold Mem.alloc
    have h2 : len ≤ h.lmax := hcap.resolve_left h1
    have h3 : ¬ h.lmax = -1 := by omega
    simp only [if_neg h3, if_neg (not_lt.2 h0), if_neg (not_lt.2 h2)]
    exact ⟨_, rfl, by rw [if_neg h1], by rw [if_neg h1]⟩

/-- **C47, round trip.** Save the state of a solver `a` into a group `g` (empty, or whose views of
these names have the right sizes), then load it into a solver `b` for a problem of the same
dimensions on the same number of ranks, whatever its own state, provided `b` has room for the stored
pairs. Both calls succeed, and afterwards `b` is `a` in every member modelled: the iterate, the
barrier parameter, the number of iterations and the whole quasi-Newton Hessian. Only the number of
rows reserved for pairs is that of `b`. -/
theorem C47_roundtrip (version : K) (g : Group K) (a b : Alg K) (hs : Strided g)
    (hfit : ∀ p ∈ saved version a, ∀ v, g p.1 = some v → v.num = p.2.length)
    (ha : MemOk a.hqn) (hb : b.hqn.lcurr < 0 ∨ MemOk b.hqn) (hp : SameProblem a b)
    (hcap : b.hqn.lcurr = a.hqn.lcurr ∨ a.hqn.lcurr ≤ b.hqn.lmax) :
    (save version g a).2 = none ∧
    ∃ c c' : ℕ, load (save version g a).1 b =
        ({ a with
            hqn := { a.hqn with St := { a.hqn.St with cap := c }, Yt := { a.hqn.Yt with cap := c' } }
            apiLoad := true }, none) ∧
      c = (if b.hqn.lcurr = a.hqn.lcurr then b.hqn.St.cap else b.hqn.lmax.toNat) ∧
      c' = (if b.hqn.lcurr = a.hqn.lcurr then b.hqn.Yt.cap else b.hqn.lmax.toNat) := by
  obtain ⟨s1, s2⟩ := C47_save version g a hs
  have hok := s1.2 hfit
  obtain ⟨s3, -⟩ := s2 hok
  refine ⟨hok, ?_⟩
  generalize (save version g a).1 = g' at s3
  have vp : viewData g' "alg_params" = some [a.mu, (a.iterTotal : K), (a.nranks : K), version] :=
    s3 ("alg_params", _) (by simp [saved])
  have vq : viewData g' "Hess_quasiNewton_params" = some [(a.hqn.lmax : K), (a.hqn.lcurr : K),
      a.hqn.sigma, a.hqn.sigma0, if a.hqn.changed then 1 else 0] :=
    s3 ("Hess_quasiNewton_params", _) (by simp [saved])
  have vc : ∀ t ∈ currSlots (K := K), viewData g' t.name = some (t.get a) := by
    intro t ht
    refine s3 (t.name, t.get a) (List.mem_append_left _ (List.mem_of_mem_take (i := 12) ?_))
    rw [← currSlots_arrays]
    exact List.mem_map.2 ⟨t, ht, rfl⟩
  have vh : ∀ t ∈ hqnSlots (K := K), viewData g' t.name = some (t.get a) := by
    intro t ht
    refine s3 (t.name, t.get a) (List.mem_append_left _ (List.mem_of_mem_drop (i := 12) ?_))
    rw [← hqnSlots_arrays]
    exact List.mem_map.2 ⟨t, ht, rfl⟩
  have rp := copyArrayFromView_ok_iff.2 ⟨vp, (rfl : _ = 4)⟩
  have rq := copyArrayFromView_ok_iff.2 ⟨vq, (rfl : _ = 5)⟩
  obtain ⟨⟨l1, l2, l3, l4, l5, l6, l7, l8, l9, l10, l11, l12⟩,
        ⟨p1, p2, p3, p4, p5, p6, p7, p8, p9, p10, p11, p12⟩, p13, p14, p15, p16, p17⟩ := hp
  -- the current iterate
  set b1 : Alg K := ⟨b.it, b.hqn, a.mu, a.iterTotal, b.nranks, true⟩ with hb1
  have ok1 : (loadSlots g' currSlots b1).2 = none := by
    refine (loadSlots_ok_iff g' currSlots b1 currSlots_separate).2 fun t ht => ⟨_, vc t ht, ?_⟩
    revert t ht
    simp [currSlots, itSlots, *]
  have holds1 := loadSlots_holds g' currSlots b1 currSlots_separate ok1
  obtain ⟨fh, fmu, fit, fnr, fapi⟩ := currSlots_frame g' b1
  rcases hL1 : loadSlots g' currSlots b1 with ⟨b2, e⟩
  rw [hL1] at ok1 holds1 fh fmu fit fnr fapi
  simp only at ok1 holds1 fh fmu fit fnr fapi
  subst ok1
  have it2 : b2.it = a.it := by
    have h : ∀ t ∈ currSlots (K := K), t.get b2 = t.get a := by
      intro t ht
      have := holds1 t ht
      rw [vc t ht] at this
      exact (Option.some.inj this).symm
    simp only [currSlots, itSlots, List.mem_cons, List.not_mem_nil, or_false, forall_eq_or_imp,
      forall_eq] at h
    obtain ⟨q1, q2, q3, q4, q5, q6, q7, q8, q9, q10, q11, q12⟩ := h
    exact ItV.ext q1 q2 q3 q4 q5 q6 q7 q8 q9 q10 q11 q12
  -- the memory
  obtain ⟨hh, e4, cap1, cap2⟩ := alloc_ok (h := b.hqn) (len := a.hqn.lcurr) hb ha.nonneg hcap
  have mo := alloc_memOk (lm := a.hqn.lmax) (s := a.hqn.sigma) (s0 := a.hqn.sigma0)
    (ch := a.hqn.changed) hb e4
  obtain ⟨a1, a2, a3, a4, a5⟩ := alloc_same e4
  set b3 : Alg K := { b2 with hqn := { hh with
    lmax := a.hqn.lmax, lcurr := a.hqn.lcurr, sigma := a.hqn.sigma, sigma0 := a.hqn.sigma0
    changed := a.hqn.changed } } with hb3
  have n1 := ha.stDat
  have n2 := ha.ytDat
  have n3 := ha.dLen
  have n4 := ha.lLen
  have k1 := mo.stDat
  have k2 := mo.ytDat
  have k3 := mo.dLen
  have k4 := mo.lLen
  simp only [a1] at k1 k2 k3 k4
  have ok2 : (loadSlots g' hqnSlots b3).2 = none := by
    refine (loadSlots_ok_iff g' hqnSlots b3 hqnSlots_separate).2 fun t ht => ⟨_, vh t ht, ?_⟩
    revert t ht
    simp [hqnSlots, itSlots, *]
  have holds2 := loadSlots_holds g' hqnSlots b3 hqnSlots_separate ok2
  have fr := hqnSlots_frame g' b3
  rcases hL2 : loadSlots g' hqnSlots b3 with ⟨b4, e⟩
  rw [hL2] at ok2 holds2 fr
  simp only at ok2 holds2 fr
  subst ok2
  have hgets : ∀ t ∈ hqnSlots (K := K), t.get b4 = t.get a := by
    intro t ht
    have := holds2 t ht
    rw [vh t ht] at this
    exact (Option.some.inj this).symm
  refine ⟨b4.hqn.St.cap, b4.hqn.Yt.cap, ?_, ?_, ?_⟩
  · have hload : load g' b = loadSlots g' hqnSlots b3 := by
      unfold load
      simp only [rp, List.getD_cons_zero, List.getD_cons_succ, toInt_intCast, toInt_natCast]
      rw [if_neg (by simp [p17])]
      change (match loadSlots g' currSlots b1 with
        | (a, some e) => (a, some e)
        | (a, none) => _) = _
      rw [hL1]
      simp only [rq, List.getD_cons_zero, List.getD_cons_succ, toInt_intCast]
      rw [fh]
      simp only [hb1]
      rw [e4]
      have : decide ((if a.hqn.changed then (1 : K) else 0) ≠ 0) = a.hqn.changed := by
        cases a.hqn.changed <;> simp
      simp only [this]
      rfl
    rw [hload, hL2]
    simp only [Prod.mk.injEq, and_true]
    simp only [hqnSlots, itSlots, List.mem_append, List.mem_cons, List.not_mem_nil, or_false,
      or_assoc, forall_eq_or_imp, forall_eq] at hgets
    simp only [hqnRest, hb3, Prod.mk.injEq] at fr
    obtain ⟨q1, q2, q3, q4, q5, q6, q7, q8, q9, q10, q11, q12, q13, q14, q15, q16, q17, q18, q19⟩ :=
      hgets
    obtain ⟨g1, g2, g3, g4, g5, g6, g7, g8, g9, g10, g11, g12, g13, g14, g15, g16, g17⟩ := fr
    have r1 := mo.stRows
    have r2 := mo.ytRows
    have r3 := mo.stCols
    have r4 := mo.ytCols
    have t1 := ha.stRows
    have t2 := ha.ytRows
    have t3 := ha.stCols
    have t4 := ha.ytCols
    simp only at r1 r2 r3 r4
    have u1 : b4.hqn.St.rows = a.hqn.St.rows := by rw [g12]; omega
    have u2 : b4.hqn.Yt.rows = a.hqn.Yt.rows := by rw [g15]; omega
    have u3 : b4.hqn.St.cols = a.hqn.St.cols := by rw [g13, r3, t3, a1, p16]
    have u4 : b4.hqn.Yt.cols = a.hqn.Yt.cols := by rw [g16, r4, t4, a1, p16]
    have hprev : b4.hqn.itPrev = a.hqn.itPrev :=
      ItV.ext q1 q2 q3 q4 q5 q6 q7 q8 q9 q10 q11 q12
    have hSt : b4.hqn.St = { a.hqn.St with cap := b4.hqn.St.cap } := Mem.ext u1 u3 rfl q16
    have hYt : b4.hqn.Yt = { a.hqn.Yt with cap := b4.hqn.Yt.cap } := Mem.ext u2 u4 rfl q17
    have hq : b4.hqn = { a.hqn with
        St := { a.hqn.St with cap := b4.hqn.St.cap }
        Yt := { a.hqn.Yt with cap := b4.hqn.Yt.cap } } := by
      have e6 : b4.hqn.nloc = a.hqn.nloc := by rw [g6, a1, p16]
      rw [← hSt, ← hYt]
      exact Hqn.ext e6 g7 g8 g9 g10 g11 hprev q13 q14 q15 rfl rfl q18 q19
    rw [← hq]
    have e1 : b4.it = a.it := by rw [g1, it2]
    have e2 : b4.mu = a.mu := by rw [g2, fmu]
    have e3 : b4.iterTotal = a.iterTotal := by rw [g3, fit]
    have e5 : b4.nranks = a.nranks := by rw [g4, fnr, ← p17]
    have e6 : b4.apiLoad = true := by rw [g5, fapi]
    cases b4
    simp only at e1 e2 e3 e5 e6
    subst e1 e2 e3 e5 e6
    rfl
  · simp only [hqnRest, hb3, Prod.mk.injEq] at fr
    rw [← cap1]
    exact fr.2.2.2.2.2.2.2.2.2.2.2.2.2.1
  · simp only [hqnRest, hb3, Prod.mk.injEq] at fr
    rw [← cap2]
    exact fr.2.2.2.2.2.2.2.2.2.2.2.2.2.2.2.2

/-- **C47, saving again.** A second checkpoint of the same problem into the same group replaces the
first one when the number of stored pairs has not changed. Partial: with another number of pairs the
call fails, see `C47_resave_false`. -/
theorem C47_resave_partial (version : K) (g : Group K) (a a' : Alg K) (hs : Strided g)
    (hok : (save version g a).2 = none) (hs' : Strided (save version g a).1)
    (hm : MemOk a.hqn) (hm' : MemOk a'.hqn) (hp : SameProblem a' a)
    (hl : a'.hqn.lcurr = a.hqn.lcurr) :
    (save version (save version g a).1 a').2 = none ∧
    ∀ p ∈ saved version a', viewData (save version (save version g a).1 a').1 p.1 = some p.2 := by
  have h1 := ((C47_save version g a hs).2 hok).1
  obtain ⟨h2, h3⟩ := C47_save version (save version g a).1 a' hs'
  suffices h : (save version (save version g a).1 a').2 = none from ⟨h, (h3 h).1⟩
  refine h2.2 ?_
  have key : ∀ p ∈ saved version a', ∃ q ∈ saved version a, q.1 = p.1 ∧ q.2.length = p.2.length := by
    obtain ⟨⟨l1, l2, l3, l4, l5, l6, l7, l8, l9, l10, l11, l12⟩,
      ⟨p1, p2, p3, p4, p5, p6, p7, p8, p9, p10, p11, p12⟩, p13, p14, p15, p16, _⟩ := hp
    have m1 : a'.hqn.St.dat.length = a.hqn.St.dat.length := by rw [hm.stDat, hm'.stDat, hl, p16]
    have m2 : a'.hqn.Yt.dat.length = a.hqn.Yt.dat.length := by rw [hm.ytDat, hm'.ytDat, hl, p16]
    have m3 : a'.hqn.D.length = a.hqn.D.length := by rw [hm.dLen, hm'.dLen, hl]
    have m4 : a'.hqn.L.length = a.hqn.L.length := by rw [hm.lLen, hm'.lLen, hl]
    simp only [saved, arrays, List.cons_append, List.nil_append, List.mem_cons, List.not_mem_nil,
      or_false, forall_eq_or_imp, forall_eq, exists_eq_or_imp, exists_eq_left]
    simp [l1, l2, l3, l4, l5, l6, l7, l8, l9, l10, l11, l12, p1, p2, p3, p4, p5, p6, p7, p8, p9,
      p10, p11, p12, p13, p14, p15, m1, m2, m3, m4]
  intro p hpm v hv
  obtain ⟨q, hq, e1, e2⟩ := key p hpm
  have := h1 q hq
  rw [e1, viewData, hv] at this
  simp only [Option.map_some, Option.some.injEq] at this
  rw [← e2, ← this, v.length_contents]

/-- **C47, room for further pairs.** After the round trip the restored solver can store a pair
whenever its counters say it has room (`lcurr < lmax`), if the secant memory of the restoring solver
is at least as long as that of the saved one. Partial: false otherwise, see `C47_room_false`. -/
theorem C47_room_partial (version : K) (g : Group K) (a b : Alg K) (hs : Strided g)
    (hfit : ∀ p ∈ saved version a, ∀ v, g p.1 = some v → v.num = p.2.length)
    (ha : MemOk a.hqn) (hb : b.hqn.lcurr < 0 ∨ MemOk b.hqn) (hp : SameProblem a b)
    (hb1 : b.hqn.lmax ≤ b.hqn.St.cap) (hb2 : b.hqn.lmax ≤ b.hqn.Yt.cap)
    (hcap : a.hqn.lcurr ≤ b.hqn.lmax) (hmax : a.hqn.lmax ≤ b.hqn.lmax) (row : List K) :
    ∀ b', load (save version g a).1 b = (b', none) → b'.hqn.lcurr < b'.hqn.lmax →
      (b'.hqn.St.appendRow row).isSome ∧ (b'.hqn.Yt.appendRow row).isSome := by
  obtain ⟨_, c, c', e, h1, h2⟩ := C47_roundtrip version g a b hs hfit ha hb hp (Or.inr hcap)
  intro b' hb'
  rw [e] at hb'
  cases hb'
  intro hlt
  have hlt : a.hqn.lcurr < a.hqn.lmax := hlt
  have r1 := ha.stRows
  have r2 := ha.ytRows
  have : (a.hqn.St.rows : ℤ) < c := by rw [h1]; split_ifs <;> omega
  have : (a.hqn.Yt.rows : ℤ) < c' := by rw [h2]; split_ifs <;> omega
  simp only [Mem.appendRow]
  constructor
  · rw [if_neg (by omega)]; rfl
  · rw [if_neg (by omega)]; rfl

/-! ### C47: starting from a checkpoint -/

/-- **C47, starting a run.** Without a checkpoint the starting procedure is used; with an unreadable
file too, with the same result; with a good file the run starts from the restored state, and with
the state loaded earlier through the API from that state. -/
theorem C47_start (f : File K) (sp : ItV K → ItV K) (mu0 : K) (a : Alg K) :
    (a.apiLoad = false → start false f sp mu0 a =
      some { a with it := sp a.it, mu := mu0, iterTotal := 0 }) ∧
    (a.apiLoad = false → start true .unreadable sp mu0 a = start false f sp mu0 a) ∧
    (a.apiLoad = true → ∀ l, start l f sp mu0 a = some a) ∧
    (∀ g a', a.apiLoad = false → load g a = (a', none) → start true (.holds g) sp mu0 a = some a') := by
  refine ⟨fun h => ?_, fun h => ?_, fun h l => ?_, fun g a' h hl => ?_⟩
  · simp [start, h]
  · simp [start, h, loadFile]
  · simp [start, h]
  · simp [start, h, loadFile, hl]

/-- **C47, save to a file, start from it.** A run of a new solver that starts from the file written
by another solver starts in the state of that solver. -/
theorem C47_restart (version : K) (sp : ItV K → ItV K) (mu0 : K) (a b : Alg K)
    (ha : MemOk a.hqn) (hb : b.hqn.lcurr < 0 ∨ MemOk b.hqn) (hp : SameProblem a b)
    (hcap : a.hqn.lcurr ≤ b.hqn.lmax) (hb' : b.apiLoad = false) :
    ∃ g, saveFile version a = .ok g ∧ ∃ r, start true (.holds g) sp mu0 b = some r ∧
      r.it = a.it ∧ r.mu = a.mu ∧ r.iterTotal = a.iterTotal ∧
      r.hqn.lmax = a.hqn.lmax ∧ r.hqn.lcurr = a.hqn.lcurr ∧ r.hqn.sigma = a.hqn.sigma ∧
      r.hqn.sigma0 = a.hqn.sigma0 ∧ r.hqn.St.dat = a.hqn.St.dat ∧ r.hqn.Yt.dat = a.hqn.Yt.dat ∧
      r.hqn.D = a.hqn.D ∧ r.hqn.L = a.hqn.L ∧ r.hqn.itPrev = a.hqn.itPrev ∧
      r.hqn.gradPrev = a.hqn.gradPrev ∧ r.hqn.jacC = a.hqn.jacC ∧ r.hqn.jacD = a.hqn.jacD := by
  obtain ⟨h1, c, c', h2, -⟩ := C47_roundtrip version (fun _ => none) a b (fun _ _ h => by cases h)
    (fun _ _ _ h => by cases h) ha hb hp (Or.inr hcap)
  refine ⟨(save version (fun _ => none) a).1, ?_, _,
    (C47_start (.unreadable) sp mu0 b).2.2.2 _ _ hb' h2, ?_⟩
  · unfold saveFile
    rcases hsv : save version (fun _ => none) a with ⟨g, e⟩
    rw [hsv] at h1
    simp only at h1
    subst h1
    rfl
  · exact ⟨rfl, rfl, rfl, rfl, rfl, rfl, rfl, rfl, rfl, rfl, rfl, rfl, rfl, rfl, rfl⟩

end

/-! ### C47: file names -/

theorem find_none {path : List Char} {pos : ℕ} (h : '#' ∉ path.drop pos) :
    find '#' path pos = none := by
  unfold find
  rw [Option.map_eq_none_iff, List.findIdx?_eq_none_iff]
  intro x hx
  simp only [beq_eq_false_iff_ne]
  rintro rfl
  exact h hx

theorem find_some {pre u w : List Char} {pos : ℕ} (h1 : pos ≤ pre.length)
    (h2 : '#' ∉ pre.drop pos) (h3 : '#' ∉ u) :
    find '#' (pre ++ (u ++ '#' :: w)) pos = some (pre.length + u.length) := by
  unfold find
  rw [List.drop_append_of_le_length h1]
  have h4 : '#' ∉ pre.drop pos ++ u := by
    simp only [List.mem_append, not_or]; exact ⟨h2, h3⟩
  have : (pre.drop pos ++ (u ++ '#' :: w)).findIdx? (· == '#') =
      some ((pre.drop pos).length + u.length) := by
    rw [← List.append_assoc, List.findIdx?_append]
    have hn : (pre.drop pos ++ u).findIdx? (· == '#') = none := by
      rw [List.findIdx?_eq_none_iff]
      intro x hx
      simp only [beq_eq_false_iff_ne]
      rintro rfl
      exact h4 hx
    rw [hn]
    simp [List.findIdx?_cons]
  rw [this]
  simp only [Option.map_some, Option.some.injEq, List.length_drop]
  omega

/-- Replacing every `#` by `s`. -/
def substHash (s path : List Char) : List Char :=
  path.flatMap fun c => if c = '#' then s else [c]

theorem substHash_of_not_mem (s : List Char) : ∀ path : List Char, '#' ∉ path →
    substHash s path = path
  | [], _ => rfl
  | c :: cs, h => by
    rw [List.mem_cons, not_or] at h
    have := substHash_of_not_mem s cs h.2
    unfold substHash at this ⊢
    rw [List.flatMap_cons, this, if_neg (Ne.symm h.1)]
    rfl

theorem substHash_append (s p q : List Char) :
    substHash s (p ++ q) = substHash s p ++ substHash s q := by
  simp [substHash]

theorem exists_split : ∀ path : List Char, '#' ∈ path →
    ∃ u w, path = u ++ '#' :: w ∧ '#' ∉ u
  | [], h => by simp at h
  | c :: cs, h => by
    by_cases hc : c = '#'
    · exact ⟨[], cs, by simp [hc], by simp⟩
    · have h' : '#' ∈ cs := by
        rcases List.mem_cons.1 h with h | h
        · exact absurd h.symm hc
        · exact h
      obtain ⟨u, w, rfl, hu⟩ := exists_split cs h'
      exact ⟨c :: u, w, rfl, by simp [hu, Ne.symm hc]⟩

theorem substLoop_spec (s : List Char) (hs : '#' ∉ s) : ∀ (fuel : ℕ) (pre suf : List Char) (pos : ℕ),
    pos ≤ pre.length → '#' ∉ pre.drop pos → suf.count '#' ≤ fuel →
    substLoop s fuel (pre ++ suf) (find '#' (pre ++ suf) pos) = some (pre ++ substHash s suf) := by
  intro fuel
  induction fuel with
  | zero =>
    intro pre suf pos h1 h2 h3
    have h4 : '#' ∉ suf := List.count_eq_zero.1 (by omega)
    rw [find_none (by
      rw [List.drop_append_of_le_length h1, List.mem_append, not_or]; exact ⟨h2, h4⟩),
      substHash_of_not_mem s suf h4]
    rfl
  | succ fuel ih =>
    intro pre suf pos h1 h2 h3
    by_cases h4 : '#' ∈ suf
    · obtain ⟨u, w, rfl, hu⟩ := exists_split suf h4
      rw [find_some h1 h2 hu, substLoop]
      have hrep : replaceAt (pre ++ (u ++ '#' :: w)) (pre.length + u.length) s =
          (pre ++ u ++ s) ++ w := by
        unfold replaceAt
        have e1 : pre ++ (u ++ '#' :: w) = (pre ++ u) ++ '#' :: w := by simp
        have e2 : pre.length + u.length = (pre ++ u).length := by simp
        rw [e1, e2, List.take_left']
        · rw [List.drop_append]
          simp
        · rfl
      simp only [hrep]
      rw [ih (pre ++ u ++ s) w (pre.length + u.length)]
      · rw [substHash_append, substHash_of_not_mem s u hu]
        simp [substHash]
      · simp
      · rw [show pre.length + u.length = (pre ++ u).length by simp, List.drop_left]
        exact hs
      · rw [List.count_append, List.count_cons_self] at h3
        omega
    · rw [find_none (by
        rw [List.drop_append_of_le_length h1, List.mem_append, not_or]; exact ⟨h2, h4⟩),
        substHash_of_not_mem s suf h4]
      cases fuel <;> rfl

theorem hash_not_mem_toDigits (n : ℕ) : '#' ∉ Nat.toDigits 10 n := by
  intro h
  have := Nat.isDigit_of_mem_toDigits (by decide) (by decide) h
  revert this
  decide

/-- **C47, the file name.** The substitution loop ends after as many rounds as the option has `#`
characters, and its result is the option with every `#` replaced by the iteration number. -/
theorem C47_file_name (fuel : ℕ) (path : List Char) (iter : ℕ) (h : path.count '#' ≤ fuel) :
    fileName fuel path iter =
      some (path.flatMap fun c => if c = '#' then Nat.toDigits 10 iter else [c]) := by
  have := substLoop_spec (Nat.toDigits 10 iter) (hash_not_mem_toDigits iter) fuel [] path 0
    (by simp) (by simp) h
  simpa [fileName, substHash] using this

theorem length_substHash (s : List Char) : ∀ path : List Char,
    (substHash s path).length + path.count '#' = path.length + path.count '#' * s.length
  | [] => by simp [substHash]
  | c :: cs => by
    have ih := length_substHash s cs
    unfold substHash at ih ⊢
    rw [List.flatMap_cons, List.length_append]
    by_cases hc : c = '#'
    · subst hc
      rw [if_pos rfl, List.count_cons_self, List.length_cons, Nat.add_mul]
      omega
    · rw [if_neg hc, List.count_cons_of_ne hc, List.length_cons, List.length_cons, List.length_nil]
      omega

theorem substHash_inj {s s' : List Char} : ∀ path : List Char, '#' ∈ path →
    s.length = s'.length → substHash s path = substHash s' path → s = s'
  | [], h, _, _ => by simp at h
  | c :: cs, h, hl, he => by
    unfold substHash at he
    rw [List.flatMap_cons, List.flatMap_cons] at he
    by_cases hc : c = '#'
    · rw [if_pos hc, if_pos hc] at he
      exact (List.append_inj he hl).1
    · rw [if_neg hc, if_neg hc] at he
      refine substHash_inj cs ?_ hl (List.append_inj he rfl).2
      rcases List.mem_cons.1 h with h | h
      · exact absurd h.symm hc
      · exact h

/-- **C47, one file per iteration.** If the option contains a `#`, checkpoints of different
iterations go to different files. -/
theorem C47_file_names_distinct (path : List Char) (h : '#' ∈ path) (i j : ℕ) (hij : i ≠ j) :
    fileName (path.count '#') path i ≠ fileName (path.count '#') path j := by
  rw [C47_file_name _ _ _ le_rfl, C47_file_name _ _ _ le_rfl]
  intro he
  have he : substHash (Nat.toDigits 10 i) path = substHash (Nat.toDigits 10 j) path :=
    Option.some.inj he
  have h1 := length_substHash (Nat.toDigits 10 i) path
  have h2 := length_substHash (Nat.toDigits 10 j) path
  rw [he] at h1
  have hc : 0 < path.count '#' := List.count_pos_iff.2 h
  have hl : (Nat.toDigits 10 i).length = (Nat.toDigits 10 j).length :=
    Nat.eq_of_mul_eq_mul_left hc (by omega)
  have hd := substHash_inj path h hl he
  have := congrArg (fun l => Nat.ofDigitChars 10 l 0) hd
  simp only [Nat.ofDigitChars_toDigits (b := 10) (by decide) (by decide)] at this
  exact hij this

/-- **C47, when checkpoints are saved.** With `checkpoint_save=yes` a checkpoint is written in every
iteration whose number is a positive multiple of `checkpoint_save_every_N_iter`, and in no other. -/
theorem C47_when (saveOn : Bool) (every : ℕ) (path : List Char) (iter : ℕ) :
    (checkpointing saveOn every (path.count '#') path iter).isSome ↔
      saveOn = true ∧ 0 < iter ∧ every ∣ iter := by
  unfold checkpointing
  cases saveOn
  · simp
  · simp only [Bool.not_true, Bool.false_eq_true, if_false, true_and]
    split_ifs with h
    · rw [C47_file_name _ _ _ le_rfl]
      simp [h.1, Nat.dvd_of_mod_eq_zero h.2]
    · simp only [Option.isSome_none, Bool.false_eq_true, false_iff]
      rintro ⟨h1, h2⟩
      exact h ⟨h1, Nat.mod_eq_zero_of_dvd h2⟩

example : fileName 2 "chk#_#".toList 47 = some "chk47_47".toList := by decide +kernel
example : checkpointing true 10 1 "chk#".toList 20 = some "chk20".toList := by decide +kernel
example : checkpointing true 10 1 "chk#".toList 0 = none := by decide +kernel

/-! ### Examples, and what does not hold -/

/-- An iterate with two variables, one inequality and one equality. -/
def exIt (t : ℚ) : ItV ℚ :=
  ⟨[t, 2], [3], [t, 1], [0, 1], [2], [0], [1 / 2], [-1], [1, 1], [0, 1], [1], [0]⟩

/-- A solver holding one secant pair. -/
def exA : Alg ℚ :=
  ⟨exIt 1, ⟨2, 6, 1, 3, 1, true, exIt 5, [1, 2], [1, 1], [0, 1], ⟨1, 2, 6, [1, 0]⟩,
    ⟨1, 2, 6, [2, 0]⟩, [2], [0]⟩, 1 / 10, 12, 1, false⟩

/-- The same solver one update later, holding two pairs. -/
def exA2 : Alg ℚ :=
  ⟨exIt 2, ⟨2, 6, 2, 3, 1, true, exIt 1, [1, 2], [1, 1], [0, 1], ⟨2, 2, 6, [1, 0, 0, 1]⟩,
    ⟨2, 2, 6, [2, 0, 0, 3]⟩, [2, 3], [0, 0, 0, 0]⟩, 1 / 10, 13, 1, false⟩

/-- A new solver for the same problem with secant memory `l`. -/
def exB (l : ℕ) : Alg ℚ :=
  ⟨exIt 0, ⟨2, l, -1, 1, 1, false, exIt 0, [0, 0], [0, 0], [0, 0], ⟨0, 2, l, []⟩,
    ⟨0, 2, l, []⟩, [], []⟩, 1, 0, 1, false⟩

theorem exIt_sameSize (s t : ℚ) : SameSize (exIt s) (exIt t) := by
  constructor <;> rfl

theorem exA_memOk : MemOk exA.hqn := by constructor <;> decide
theorem exA2_memOk : MemOk exA2.hqn := by constructor <;> decide

theorem exAB (l : ℕ) : SameProblem exA (exB l) :=
  ⟨exIt_sameSize _ _, exIt_sameSize _ _, rfl, rfl, rfl, rfl, rfl⟩

theorem strided_empty : Strided (fun _ => none : Group ℚ) := fun _ _ h => by cases h

/-- The hypotheses of `C47_roundtrip` and `C47_room_partial` are met. -/
example : ∃ c c', load (save 104 (fun _ => none) exA).1 (exB 6) =
    ({ exA with hqn := { exA.hqn with St := { exA.hqn.St with cap := c }, Yt := { exA.hqn.Yt with cap := c' } }
                apiLoad := true }, none) := by
  obtain ⟨_, c, c', h, _⟩ := C47_roundtrip (104 : ℚ) (fun _ => none) exA (exB 6) strided_empty
    (fun _ _ _ h => by cases h) exA_memOk (Or.inl (by decide)) (exAB 6) (Or.inr (by decide))
  exact ⟨c, c', h⟩

example : MemOk exA.hqn ∧ SameProblem exA (exB 6) ∧ exA.hqn.lmax ≤ (exB 6).hqn.lmax ∧
    (exB 6).hqn.lmax ≤ (exB 6).hqn.St.cap ∧ exA.hqn.lcurr ≤ (exB 6).hqn.lmax :=
  ⟨exA_memOk, exAB 6, by decide, by decide, by decide⟩

/-- A group with a strided view of the right size for `x`. -/
def exG : Group ℚ := Function.update (fun _ => none) "alg_iterate_x" (some ⟨2, 3, fun _ => 7⟩)

example : Strided exG ∧ (save 104 exG exA).2 = none ∧
    viewData (save 104 exG exA).1 "alg_iterate_x" = some [1, 2] := by
  refine ⟨?_, by decide +kernel, by decide +kernel⟩
  intro name v h
  unfold exG at h
  by_cases hn : name = "alg_iterate_x"
  · subst hn
    rw [Function.update_self] at h
    cases h
    decide
  · rw [Function.update_of_ne hn] at h
    cases h

/-- **Finding: saving twice into one group.** The second save fails when the quasi-Newton memory has
grown in between, although both states are well formed and belong to the same problem. -/
theorem C47_resave_false : ∃ a a' : Alg ℚ, MemOk a.hqn ∧ MemOk a'.hqn ∧ SameProblem a' a ∧
    (save 104 (fun _ => none) a).2 = none ∧
    (save 104 (save 104 (fun _ => none) a).1 a').2 = some (.size "Hess_quasiNewton_St") :=
  ⟨exA, exA2, exA_memOk, exA2_memOk,
    ⟨exIt_sameSize _ _, exIt_sameSize _ _, rfl, rfl, rfl, rfl, rfl⟩, by decide +kernel,
    by decide +kernel⟩

/-- **Finding: shorter secant memory on restart.** A solver with a smaller `secant_memory_len` loads
the checkpoint without an error but then believes it has room for a pair it has no storage for. -/
theorem C47_room_false : ∃ a b : Alg ℚ, MemOk a.hqn ∧ b.hqn.lcurr < 0 ∧ SameProblem a b ∧
    b.hqn.lmax = b.hqn.St.cap ∧ ∃ b', load (save 104 (fun _ => none) a).1 b = (b', none) ∧
      b'.hqn.lcurr < b'.hqn.lmax ∧ b'.hqn.St.appendRow [0, 0] = none := by
  refine ⟨exA, exB 1, exA_memOk, by decide, exAB 1, by decide,
    (load (save 104 (fun _ => none) exA).1 (exB 1)).1, ?_, ?_, ?_⟩
  · exact Prod.ext rfl (by decide +kernel)
  · decide +kernel
  · decide +kernel

/-- **Finding: checkpoint taken before the first Hessian update.** It is saved without complaint
(`lcurr` is -1) but a new solver crashes on loading it. -/
theorem C47_early_false : (save 104 (fun _ => none) (exB 6)).2 = none ∧
    (load (save 104 (fun _ => none) (exB 6)).1 (exB 6)).2 = some .crash :=
  ⟨by decide +kernel, by decide +kernel⟩

/-- A damaged checkpoint: the matrix of the `s` vectors is missing. -/
def exDamaged : Group ℚ :=
  Function.update (save 104 (fun _ => none) exA).1 "Hess_quasiNewton_St" none

/-- **Finding: a failed load is not undone.** Starting from a damaged file falls back to the starting
procedure, but the quasi-Newton Hessian keeps what was loaded before the failure: a run without the
file would start with no pairs, this one with one pair whose vectors are zero. A second run of the
same solver then skips the starting procedure. -/
theorem C47_fallback_false :
    (load exDamaged (exB 6)).2 = some (.missing "Hess_quasiNewton_St") ∧
    (start true (.holds exDamaged) id 1 (exB 6)).map (fun a => (a.hqn.lcurr, a.hqn.St.dat)) =
      some (1, [0, 0]) ∧
    (start false (.holds exDamaged) id 1 (exB 6)).map (fun a => (a.hqn.lcurr, a.hqn.St.dat)) =
      some (-1, []) ∧
    (start true (.holds exDamaged) id 1 (exB 6)).map (fun a => a.apiLoad) = some true :=
  ⟨by decide +kernel, by decide +kernel, by decide +kernel, by decide +kernel⟩

/-- The hypotheses of `C47_rejects` are met by the damaged checkpoint. -/
example : ∃ p ∈ saved 0 (exB 6), viewData exDamaged p.1 = none :=
  ⟨("Hess_quasiNewton_St", []), by decide +kernel, by decide +kernel⟩

/-- **Finding: a load refused because of the number of ranks** has already replaced the barrier
parameter and the iteration count. -/
theorem C47_ranks_false :
    (load (save 104 (fun _ => none) exA).1 { exB 6 with nranks := 2 }).2 = some .ranks ∧
    (load (save 104 (fun _ => none) exA).1 { exB 6 with nranks := 2 }).1.mu = 1 / 10 ∧
    (exB 6).mu = 1 :=
  ⟨by decide +kernel, by decide +kernel, rfl⟩

/-- A second checkpoint with the same number of pairs meets the hypotheses of
`C47_resave_partial`. -/
example : (save 104 (save 104 (fun _ => none) exA).1 { exA with mu := 1 / 20 }).2 = none := by
  decide +kernel

end Hiop.Checkpoint
