import Verif.IntVec.Model
import Verif.Raja.Lemmas
import Verif.Gpu.Props

/-!
# C86: integer vectors hold what they are set to

Specification: `Holds sz a buf old out` says that the first `sz` entries are those of `a` and nothing else is written.
-/

namespace Hiop.IntVec

open Hiop.Raja

/-- The vector of `sz` entries holds `a`, and what lies behind it is as before. -/
def Holds (sz : ℕ) (a old out : ℕ → ℤ) : Prop := (∀ i, i < sz → out i = a i) ∧ ∀ i, sz ≤ i → out i = old i

/-- What `linspace` is documented to give (hiopVectorInt.hpp). -/
def space (i0 di : ℤ) : ℕ → ℤ := fun i => i0 + i * di

theorem Holds.eq {sz : ℕ} {a old out out' : ℕ → ℤ} (h : Holds sz a old out) (h' : Holds sz a old out') : out = out' := by
  funext i
  by_cases hi : i < sz
  · rw [h.1 i hi, h'.1 i hi]
  · rw [h.2 i (by omega), h'.2 i (by omega)]

/-! ## Host -/

theorem linspaceLoop_some (di : ℤ) (k : ℕ) : ∀ (i : ℕ) (last : ℤ) (buf : ℕ → ℤ),
    (∀ j : ℕ, 1 ≤ j → j ≤ k → IsInt (last + j * di)) → ∃ out, linspaceLoop di k i last buf = some out ∧
      (∀ j, j < k → out (i + j) = last + j * di) ∧ ∀ l, l < i ∨ i + k ≤ l → out l = buf l := by
  induction k with
  | zero => intro i last buf _; exact ⟨buf, rfl, by simp, fun _ _ => rfl⟩
  | succ k ih =>
    intro i last buf h
    have h1 : IsInt (last + di) := by simpa using h 1 le_rfl (by omega)
    obtain ⟨out, e, g1, g2⟩ := ih (i + 1) (last + di) (Function.update buf i last) (fun j hj hk => by
      have := h (j + 1) (by omega) (by omega)
      push_cast at this
      rw [show last + ((j : ℤ) + 1) * di = last + di + j * di by ring] at this
      exact this)
    refine ⟨out, by simp [linspaceLoop, add32, h1, e], ?_, ?_⟩
    · intro j hj
      cases j with
      | zero =>
        rw [Nat.add_zero, g2 i (Or.inl (by omega))]
        simp
      | succ j =>
        have := g1 j (by omega)
        rw [show i + (j + 1) = i + 1 + j by omega, this]
        push_cast
        ring
    · intro l hl
      rw [g2 l (by omega)]
      exact Function.update_of_ne (by omega) _ _

theorem linspaceLoop_none (di : ℤ) (k : ℕ) : ∀ (i : ℕ) (last : ℤ) (buf : ℕ → ℤ) (j : ℕ), 1 ≤ j → j ≤ k →
    ¬ IsInt (last + j * di) → linspaceLoop di k i last buf = none := by
  induction k with
  | zero => intro i last buf j h1 h2; omega
  | succ k ih =>
    intro i last buf j h1 h2 h
    unfold linspaceLoop add32
    by_cases hd : IsInt (last + di)
    · rw [if_pos hd]
      obtain ⟨j, rfl⟩ : ∃ j', j = j' + 1 := ⟨j - 1, by omega⟩
      cases j with
      | zero => simp at h; exact absurd hd h
      | succ j =>
        refine ih _ _ _ (j + 1) (by omega) (by omega) ?_
        push_cast at h ⊢
        rwa [show last + di + ((j : ℤ) + 1) * di = last + ((j : ℤ) + 1 + 1) * di by ring]
    · rw [if_neg hd]; rfl

/-- **C86, evenly spaced integers on the host.** The code is defined exactly when the entries *and the one after the
last* are integers of the type; then the vector holds them. Missing: the last entry may be the largest integer. -/
theorem C86_linspace_host_partial (sz : ℕ) (i0 di : ℤ) (buf : ℕ → ℤ) :
    ((∃ out, linspaceSeq sz i0 di buf = some out) ↔ ∀ j : ℕ, 1 ≤ j → j ≤ sz → IsInt (i0 + j * di)) ∧
    ∀ out, linspaceSeq sz i0 di buf = some out → Holds sz (space i0 di) buf out := by
  have key : (∀ j : ℕ, 1 ≤ j → j ≤ sz → IsInt (i0 + j * di)) →
      ∃ out, linspaceSeq sz i0 di buf = some out ∧ Holds sz (space i0 di) buf out := by
    intro h
    obtain ⟨out, e, g1, g2⟩ := linspaceLoop_some di sz 0 i0 buf h
    exact ⟨out, e, fun i hi => by simpa [space] using g1 i hi, fun i hi => g2 i (by omega)⟩
  have back : (∃ out, linspaceSeq sz i0 di buf = some out) → ∀ j : ℕ, 1 ≤ j → j ≤ sz → IsInt (i0 + j * di) := by
    rintro ⟨out, e⟩ j h1 h2
    by_contra hc
    have := linspaceLoop_none di sz 0 i0 buf j h1 h2 hc
    rw [linspaceSeq, this] at e
    simp at e
  refine ⟨⟨back, fun h => ⟨_, (key h).choose_spec.1⟩⟩, fun out e => ?_⟩
  obtain ⟨out', e', h⟩ := key (back ⟨out, e⟩)
  rw [e] at e'
  exact Option.some.inj e' ▸ h

/-- **C86, refuted at the boundary.** One entry, the largest integer: it fits, as the documentation asks, but the host
code computes the entry after it. -/
theorem C86_linspace_host_refuted (buf : ℕ → ℤ) :
    (∀ j : ℕ, j < 1 → IsInt (space (2 ^ 31 - 1) 1 j)) ∧ linspaceSeq 1 (2 ^ 31 - 1) 1 buf = none := by
  refine ⟨fun j hj => ?_, ?_⟩
  · obtain rfl : j = 0 := by omega
    norm_num [space, IsInt]
  · norm_num [linspaceSeq, linspaceLoop, add32, IsInt]

/-! ## RAJA -/

theorem narrow_int (z : ℤ) (h : IsInt z) : narrow z = z := by
  obtain ⟨h1, h2⟩ := h
  unfold narrow
  rw [Int.emod_eq_of_lt (by omega) (by omega)]
  omega

/-- **C86, on RAJA.** Whenever the entries fit, every schedule gives them. -/
theorem C86_linspace_raja (sz : ℕ) (i0 di : ℤ) (buf : ℕ → ℤ) (h : ∀ j : ℕ, j < sz → IsInt (space i0 di j)) :
    ∃ out, linspaceR sz i0 di buf = .one out ∧ Holds sz (space i0 di) buf out := by
  refine ⟨fun i => if i < sz then space i0 di i else buf i, ?_, fun i hi => if_pos hi, fun i hi => if_neg (by omega)⟩
  refine forallR_wr _ (fun i => i) (fun i j _ _ e => e) (fun i hi => ?_) fun l hl => ?_
  · rw [if_pos hi, show i0 + (i : ℤ) * di = space i0 di i from rfl, narrow_int _ (h i hi)]
  · rw [if_neg fun hh => hl l hh rfl]

/-! ## Devices -/

/-- **C86, on CUDA and HIP.** When moreover the products `i * di` fit, every schedule gives the entries. -/
theorem C86_linspace_device_partial (sz : ℕ) (i0 di : ℤ) (buf : ℕ → ℤ) (h : ∀ j : ℕ, j < sz → IsInt (space i0 di j))
    (hp : ∀ j : ℕ, j < sz → IsInt (j * di)) :
    ∃ out, linspaceD sz i0 di buf = .one out ∧ Holds sz (space i0 di) buf out := by
  refine ⟨fun i => if i < sz then space i0 di i else buf i, ?_, fun i hi => if_pos hi, fun i hi => if_neg (by omega)⟩
  rw [linspaceD, Gpu.launch_eq]
  refine forallR_wr _ (fun i => i) (fun i j _ _ e => e) (fun i hi => ?_) fun l hl => ?_
  · have h1 := h i hi
    unfold space at h1
    simp [mul32, hp i hi, add32, h1, hi, space]
  · rw [if_neg fun hh => hl l hh rfl]

/-- **C86, refuted without it.** Four entries from the smallest integer in steps of `2^30`: all fit, but the product for
the last one does not. -/
theorem C86_linspace_device_refuted (buf : ℕ → ℤ) :
    (∀ j : ℕ, j < 4 → IsInt (space (-2 ^ 31) (2 ^ 30) j)) ∧ none ∈ linspaceD 4 (-2 ^ 31) (2 ^ 30) buf := by
  refine ⟨fun j hj => ?_, ?_⟩
  · unfold IsInt space
    interval_cases j <;> norm_num
  · rw [linspaceD, Gpu.launch_eq]
    refine Or.inr ⟨rfl, _, buf, Relation.ReflTransGen.refl, (3 : Fin 4), ?_⟩
    norm_num [mul32, IsInt]

/-- **C86, all backends.** A vector of indices `0, 1, 2, …` is the same everywhere, for every size an `int` can hold. -/
theorem C86_indices (sz : ℕ) (hsz : (sz : ℤ) < 2 ^ 31) (buf : ℕ → ℤ) :
    ∃ out, Holds sz (fun i => i) buf out ∧ linspaceSeq sz 0 1 buf = some out ∧ linspaceR sz 0 1 buf = .one out ∧
      linspaceD sz 0 1 buf = .one out := by
  have hi : ∀ j : ℕ, j ≤ sz → IsInt (0 + j * 1) := fun j hj => by
    have : (j : ℤ) ≤ sz := by exact_mod_cast hj
    constructor <;> omega
  obtain ⟨o1, e1⟩ := (C86_linspace_host_partial sz 0 1 buf).1.2 fun j _ hj => hi j hj
  have h1 := (C86_linspace_host_partial sz 0 1 buf).2 o1 e1
  obtain ⟨o2, e2, h2⟩ := C86_linspace_raja sz 0 1 buf fun j hj => hi j hj.le
  obtain ⟨o3, e3, h3⟩ := C86_linspace_device_partial sz 0 1 buf (fun j hj => hi j hj.le) fun j hj => by
    simpa using hi j hj.le
  have hs : space 0 1 = fun i : ℕ => (i : ℤ) := by funext i; simp [space]
  refine ⟨o1, hs ▸ h1, e1, ?_, ?_⟩
  · rw [h1.eq h2]; exact e2
  · rw [h1.eq h3]; exact e3

/-! ## Constants -/

theorem constantLoop_spec (c : ℤ) (k : ℕ) : ∀ (i : ℕ) (buf : ℕ → ℤ),
    (∀ j, i ≤ j → j < i + k → constantLoop c k i buf j = c) ∧
    ∀ j, j < i ∨ i + k ≤ j → constantLoop c k i buf j = buf j := by
  induction k with
  | zero => intro i buf; exact ⟨fun j h1 h2 => by omega, fun j _ => rfl⟩
  | succ k ih =>
    intro i buf
    obtain ⟨g1, g2⟩ := ih (i + 1) (Function.update buf i c)
    refine ⟨fun j h1 h2 => ?_, fun j hj => ?_⟩
    · rcases Nat.lt_or_ge i j with h | h
      · exact g1 j h (by omega)
      · obtain rfl : j = i := by omega
        show constantLoop c k (j + 1) _ j = c
        rw [g2 j (Or.inl (by omega))]
        simp
    · show constantLoop c k (i + 1) _ j = buf j
      rw [g2 j (by omega)]
      exact Function.update_of_ne (by omega) _ _

/-- **C86, constants.** On the host and on RAJA, on every schedule, exactly the entries of the vector become the constant
(or zero). -/
theorem C86_constant (sz : ℕ) (c : ℤ) (buf : ℕ → ℤ) :
    Holds sz (fun _ => c) buf (constantSeq sz c buf) ∧ constantR sz c buf = .one (constantSeq sz c buf) ∧
    Holds sz (fun _ => 0) buf (zeroSeq sz buf) ∧ zeroR sz buf = .one (zeroSeq sz buf) := by
  have hh : ∀ c : ℤ, Holds sz (fun _ => c) buf (constantSeq sz c buf) := fun c => by
    obtain ⟨g1, g2⟩ := constantLoop_spec c sz 0 buf
    exact ⟨fun i hi => g1 i (by omega) (by omega), fun i hi => g2 i (by omega)⟩
  have hr : ∀ c : ℤ, constantR sz c buf = .one (constantSeq sz c buf) := fun c => by
    refine forallR_wr _ (fun i => i) (fun i j _ _ e => e) (fun i hi => ?_) fun l hl => ?_
    · rw [(hh c).1 i hi]
    · rw [(hh c).2 l (by by_contra hc; exact hl l (by omega) rfl)]
  exact ⟨hh c, hr c, hh 0, hr 0⟩

/-! ## Copies -/

/-- **C86, copies.** Copying from an array takes the entries of the vector and ignores a missing array; copies between
vectors need equal sizes, and a vector copied away and back is unchanged. -/
theorem C86_copy (sz sz' : ℕ) (v buf other : ℕ → ℤ) :
    Holds sz v buf (copyFrom sz (some v) buf) ∧ copyFrom sz none buf = buf ∧
    ((∃ o, copyVec sz sz' v buf = some o) ↔ sz' = sz) ∧
    (∀ o, copyVec sz sz' v buf = some o → Holds sz v buf o) ∧
    ∃ o, copyVec sz sz buf other = some o ∧ copyVec sz sz o buf = some buf := by
  refine ⟨⟨fun i hi => if_pos hi, fun i hi => if_neg (by omega)⟩, rfl, ?_, ?_, ?_⟩
  · unfold copyVec
    by_cases h : sz' = sz <;> simp [h]
  · intro o ho
    unfold copyVec at ho
    by_cases h : sz' = sz
    · rw [if_pos h] at ho
      rw [← Option.some.inj ho]
      exact ⟨fun i hi => if_pos hi, fun i hi => if_neg (by omega)⟩
    · rw [if_neg h] at ho; simp at ho
  · refine ⟨_, if_pos rfl, ?_⟩
    unfold copyVec
    rw [if_pos rfl]
    congr 1
    funext i
    by_cases h : i < sz <;> simp [h]

/-! ## Vectors of vectors -/

/-- The entries of all parts, one after the other. -/
def Comp.flat (c : Comp) : List ℤ := c.parts.flatMap fun p => (List.range p.1).map p.2

/-- A compound vector is built by adding parts. -/
inductive Built : Comp → Prop
  | empty : Built .empty
  | add (c : Comp) (n : ℕ) (v : ℕ → ℤ) (h : Built c) : Built (c.add n v)

/-- **C86, compound vectors.** The size is the number of entries; adding a part appends its entries; setting a constant
or zero makes the vector that many constants. -/
theorem C86_compound (c : Comp) (h : Built c) (n : ℕ) (v : ℕ → ℤ) (a : ℤ) :
    c.flat.length = c.sz ∧ (c.add n v).flat = c.flat ++ (List.range n).map v ∧
    (c.constant a).flat = List.replicate c.sz a ∧ (c.constant a).sz = c.sz ∧
    c.zero.flat = List.replicate c.sz 0 ∧ c.zero.sz = c.sz := by
  have hl : c.flat.length = c.sz := by
    clear n v a
    induction h with
    | empty => rfl
    | add c n v _ ih =>
      simp only [Comp.flat, Comp.add] at ih ⊢
      rw [List.flatMap_append, List.length_append, ih]
      simp
  have hc : ∀ a : ℤ, (c.constant a).flat = List.replicate c.sz a := by
    intro a
    rw [← hl]
    simp only [Comp.flat, Comp.constant]
    induction c.parts with
    | nil => rfl
    | cons p ps ih =>
      rw [List.map_cons, List.flatMap_cons, List.flatMap_cons, ih, List.length_append, List.replicate_add]
      congr 1
      rw [List.length_map, List.length_range]
      refine List.eq_replicate_iff.2 ⟨by simp, fun b hb => ?_⟩
      obtain ⟨i, hi, rfl⟩ := List.mem_map.1 hb
      exact (C86_constant p.1 a p.2).1.1 i (List.mem_range.1 hi)
  refine ⟨hl, ?_, hc a, rfl, hc 0, rfl⟩
  simp [Comp.flat, Comp.add]

/-! ## Use in the primal decomposition -/

/-- **C86, coupling variables.** The recourse approximation works with the coupling variables of the problem: the first
`nc` ones, or the user's list. -/
theorem C86_coupling (nc : ℕ) (hnc : (nc : ℤ) < 2 ^ 31) (list : Option (ℕ → ℤ)) (fresh fresh' : ℕ → ℤ) :
    ∃ drv, coupling nc list fresh = some drv ∧
      Holds nc (match list with | none => fun i => (i : ℤ) | some l => l) fresh' (evaluatorIdx nc drv fresh') := by
  cases list with
  | none =>
    obtain ⟨out, h, e, -, -⟩ := C86_indices nc hnc fresh
    refine ⟨out, e, fun i hi => ?_, fun i hi => if_neg (by omega)⟩
    show (if i < nc then out i else fresh' i) = _
    rw [if_pos hi, h.1 i hi]
  | some l =>
    refine ⟨_, rfl, fun i hi => ?_, fun i hi => if_neg (by omega)⟩
    show (if i < nc then (if i < nc then l i else fresh i) else fresh' i) = _
    rw [if_pos hi, if_pos hi]

/-! ## The hypotheses are met -/

example : ∃ out, linspaceSeq 3 5 (-2) (fun _ => 9) = some out ∧ out 0 = 5 ∧ out 2 = 1 ∧ out 3 = 9 := by
  refine ⟨_, by norm_num [linspaceSeq, linspaceLoop, add32, IsInt]; rfl, ?_⟩
  simp [Function.update]

example : ∀ j : ℕ, j < 3 → IsInt (space 5 (-2) j) ∧ IsInt (j * (-2)) := fun j hj => by
  unfold IsInt space; interval_cases j <;> norm_num

example : Built ((Comp.empty.add 2 fun _ => 7).add 3 fun i => i) := .add _ _ _ (.add _ _ _ .empty)

end Hiop.IntVec
