import Verif.Checkpoint.Model
import Mathlib.Data.List.Nodup
import Mathlib.Tactic.Ring

/-! # Lemmas on the view copies -/

namespace Hiop.Checkpoint

set_option linter.unusedSectionVars false

variable {K : Type*}

/-- The elements of a view, in order. -/
def View.contents (v : View K) : List K := (List.range v.num).map fun i => v.buf (i * v.stride)

/-- The elements of the view of the given name, if there is one. -/
def viewData (g : Group K) (name : String) : Option (List K) := (g name).map View.contents

theorem View.length_contents (v : View K) : v.contents.length = v.num := by
  simp [View.contents]

theorem writeLoop_other (st : ℕ) : ∀ (xs : List K) (i : ℕ) (buf : ℕ → K) (p : ℕ),
    (∀ j, i ≤ j → p ≠ j * st) → writeLoop st xs i buf p = buf p
  | [], _, _, _, _ => rfl
  | x :: xs, i, buf, p, h => by
    rw [writeLoop, writeLoop_other st xs (i + 1) _ p (fun j hj => h j (by omega)),
      Function.update_of_ne (h i le_rfl)]

theorem writeLoop_get (st : ℕ) (hst : st ≠ 0) : ∀ (xs : List K) (i : ℕ) (buf : ℕ → K) (j : ℕ)
    (hj : j < xs.length), writeLoop st xs i buf ((i + j) * st) = xs[j]
  | x :: xs, i, buf, 0, _ => by
    rw [writeLoop, writeLoop_other]
    · simp
    · intro j hj h
      have := Nat.eq_of_mul_eq_mul_right (Nat.pos_of_ne_zero hst) h
      omega
  | x :: xs, i, buf, j + 1, hj => by
    have := writeLoop_get st hst xs (i + 1) (Function.update buf (i * st) x) j
      (by simpa using hj)
    rw [writeLoop, show i + (j + 1) = i + 1 + j by ring, this]
    simp

theorem writeLoop_contents (st : ℕ) (hst : st ≠ 0) (xs : List K) (buf : ℕ → K) :
    (View.mk xs.length st (writeLoop st xs 0 buf)).contents = xs := by
  apply List.ext_getElem
  · simp [View.contents]
  · intro i h1 h2
    have := writeLoop_get st hst xs 0 buf i h2
    simpa [View.contents] using this

section
variable [Zero K]

/-- An existing view of this name has the given size. -/
def Fits (g : Group K) (name : String) (size : ℕ) : Prop := ∀ v, g name = some v → v.num = size

theorem copyArrayToView_ok {g : Group K} {name : String} {src : List K}
    (h : Fits g name src.length) (hs : ∀ v, g name = some v → v.stride ≠ 0) :
    ∃ v : View K, copyArrayToView g name src = .ok (Function.update g name (some v)) ∧
      v.contents = src ∧ v.stride ≠ 0 := by
  unfold copyArrayToView getOrCreate
  rcases hg : g name with _ | v
  · refine ⟨⟨src.length, 1, writeLoop 1 src 0 fun _ => 0⟩, ?_,
      writeLoop_contents 1 one_ne_zero _ _, one_ne_zero⟩
    simp
  · have h1 := h v hg
    have h2 := hs v hg
    obtain ⟨num, st, buf⟩ := v
    simp only at h1 h2
    subst h1
    refine ⟨⟨src.length, st, writeLoop st src 0 buf⟩, ?_, writeLoop_contents st h2 _ _, h2⟩
    by_cases h3 : st = 1
    · subst h3; simp
    · simp [h3]

theorem copyArrayToView_error {g : Group K} {name : String} {src : List K} {v : View K}
    (hg : g name = some v) (h : v.num ≠ src.length) :
    copyArrayToView g name src = .error (.size name) := by
  simp [copyArrayToView, getOrCreate, hg, h]

theorem copyArrayFromView_ok_iff {g : Group K} {name : String} {size : ℕ} {d : List K} :
    copyArrayFromView g name size = .ok d ↔ viewData g name = some d ∧ d.length = size := by
  unfold copyArrayFromView viewData
  rcases g name with _ | v
  · simp
  · simp only [Option.map_some, Option.some.injEq]
    by_cases h : v.num = size
    · subst h
      have hc : v.stride = 1 → (List.range v.num).map v.buf = v.contents := by
        intro h1; simp [View.contents, h1]
      by_cases h1 : v.stride = 1
      · simp only [ne_eq, not_true_eq_false, if_false, h1, if_true, hc h1, Except.ok.injEq]
        constructor
        · rintro rfl; exact ⟨rfl, v.length_contents⟩
        · exact fun h => h.1
      · simp only [ne_eq, not_true_eq_false, if_false, h1, Except.ok.injEq]
        constructor
        · rintro rfl; exact ⟨rfl, v.length_contents⟩
        · exact fun h => h.1
    · simp only [ne_eq, h, not_false_eq_true, if_true, reduceCtorEq, false_iff]
      rintro ⟨rfl, h2⟩
      exact h (by rw [← h2, v.length_contents])

variable {σ : Type*}

/-- Saving succeeds and fills every view. -/
theorem saveSlots_ok (s : σ) : ∀ (ts : List (Slot σ K)) (g : Group K),
    (ts.map Slot.name).Nodup →
    (∀ t ∈ ts, Fits g t.name (t.get s).length) →
    (∀ t ∈ ts, ∀ v, g t.name = some v → v.stride ≠ 0) →
    ∃ g', saveSlots s ts g = (g', none) ∧
      (∀ t ∈ ts, viewData g' t.name = some (t.get s)) ∧
      (∀ name, name ∉ ts.map Slot.name → g' name = g name)
  | [], g, _, _, _ => ⟨g, rfl, by simp, fun _ _ => rfl⟩
  | t :: ts, g, hn, hf, hs => by
    obtain ⟨v, h1, h2, h3⟩ := copyArrayToView_ok (hf t (by simp)) (hs t (by simp))
    rw [List.map_cons, List.nodup_cons] at hn
    have hne : ∀ u ∈ ts, u.name ≠ t.name := fun u hu h =>
      hn.1 (List.mem_map.2 ⟨u, hu, h⟩)
    obtain ⟨g', e1, e2, e3⟩ := saveSlots_ok s ts (Function.update g t.name (some v)) hn.2
      (fun u hu w hw => hf u (by simp [hu]) w (by rwa [Function.update_of_ne (hne u hu)] at hw))
      (fun u hu w hw => hs u (by simp [hu]) w (by rwa [Function.update_of_ne (hne u hu)] at hw))
    refine ⟨g', by rw [saveSlots, h1]; exact e1, ?_, ?_⟩
    · intro u hu
      rcases List.mem_cons.1 hu with rfl | hu
      · rw [viewData, e3 _ hn.1, Function.update_self, Option.map_some, h2]
      · exact e2 u hu
    · intro name hname
      rw [List.map_cons, List.mem_cons, not_or] at hname
      rw [e3 name hname.2, Function.update_of_ne hname.1]

/-- Saving into a group with a view of another size fails. -/
theorem saveSlots_fails (s : σ) : ∀ (ts : List (Slot σ K)) (g : Group K),
    (ts.map Slot.name).Nodup →
    (∃ t ∈ ts, ¬ Fits g t.name (t.get s).length) →
    ∃ g' name, saveSlots s ts g = (g', some (.size name))
  | [], _, _, h => by simp at h
  | t :: ts, g, hn, h => by
    rw [List.map_cons, List.nodup_cons] at hn
    by_cases hf : Fits g t.name (t.get s).length
    · have : ∃ v, copyArrayToView g t.name (t.get s) =
          .ok (Function.update g t.name (some v)) := by
        have hnum : (getOrCreate g t.name (t.get s).length).num = (t.get s).length := by
          unfold getOrCreate
          rcases hg : g t.name with _ | v
          · rfl
          · exact hf v hg
        unfold copyArrayToView
        simp only [hnum, ne_eq, not_true_eq_false, if_false]
        split_ifs
        · exact ⟨_, rfl⟩
        · exact ⟨_, rfl⟩
      obtain ⟨v, hv⟩ := this
      obtain ⟨u, hu, hnf⟩ := h
      have hu' : u ∈ ts := by
        rcases List.mem_cons.1 hu with rfl | hu
        · exact absurd hf hnf
        · exact hu
      have hne : u.name ≠ t.name := fun h => hn.1 (List.mem_map.2 ⟨u, hu', h⟩)
      rw [saveSlots, hv]
      refine saveSlots_fails s ts _ hn.2 ⟨u, hu', fun hf' => hnf fun w hw => hf' w ?_⟩
      rwa [Function.update_of_ne hne]
    · unfold Fits at hf
      push Not at hf
      obtain ⟨v, hv, hne⟩ := hf
      rw [saveSlots, copyArrayToView_error hv hne]
      exact ⟨g, t.name, rfl⟩

/-- The slots are separate parts of the state. -/
structure Separate (ts : List (Slot σ K)) : Prop where
  self : ∀ t ∈ ts, ∀ v s, t.get (t.set v s) = v
  other : ts.Pairwise fun t u => ∀ v s, t.get (u.set v s) = t.get s ∧ u.get (t.set v s) = u.get s

theorem Separate.tail {t : Slot σ K} {ts : List (Slot σ K)} (h : Separate (t :: ts)) :
    Separate ts :=
  ⟨fun u hu => h.self u (by simp [hu]), (List.pairwise_cons.1 h.other).2⟩

/-- What no slot writes is not changed, whether loading succeeds or not. -/
theorem loadSlots_frame {β : Type*} (g : Group K) (F : σ → β) : ∀ (ts : List (Slot σ K)) (s : σ),
    (∀ t ∈ ts, ∀ v s, F (t.set v s) = F s) → F (loadSlots g ts s).1 = F s
  | [], _, _ => rfl
  | t :: ts, s, h => by
    rw [loadSlots]
    rcases copyArrayFromView g t.name (t.get s).length with e | v
    · rfl
    · exact (loadSlots_frame g F ts _ fun u hu => h u (by simp [hu])).trans (h t (by simp) v s)

/-- Loading succeeds exactly when every view is there with the right size; the state then holds the
contents of the views. -/
theorem loadSlots_ok_iff (g : Group K) : ∀ (ts : List (Slot σ K)) (s : σ), Separate ts →
    ((loadSlots g ts s).2 = none ↔
      ∀ t ∈ ts, ∃ d, viewData g t.name = some d ∧ d.length = (t.get s).length)
  | [], s, _ => by simp [loadSlots]
  | t :: ts, s, h => by
    rw [loadSlots]
    rcases hr : copyArrayFromView g t.name (t.get s).length with e | v
    · simp only [reduceCtorEq, false_iff]
      intro hall
      obtain ⟨d, h1, h2⟩ := hall t (by simp)
      rw [copyArrayFromView_ok_iff.2 ⟨h1, h2⟩] at hr
      cases hr
    · have hv := copyArrayFromView_ok_iff.1 hr
      have ho := (List.pairwise_cons.1 h.other).1
      change (loadSlots g ts (t.set v s)).2 = none ↔ _
      rw [loadSlots_ok_iff g ts (t.set v s) h.tail]
      constructor
      · intro hall u hu
        rcases List.mem_cons.1 hu with rfl | hu
        · exact ⟨v, hv⟩
        · obtain ⟨d, h1, h2⟩ := hall u hu
          exact ⟨d, h1, by rw [h2, (ho u hu v s).2]⟩
      · intro hall u hu
        obtain ⟨d, h1, h2⟩ := hall u (by simp [hu])
        exact ⟨d, h1, by rw [h2, (ho u hu v s).2]⟩

theorem loadSlots_holds (g : Group K) : ∀ (ts : List (Slot σ K)) (s : σ), Separate ts →
    (loadSlots g ts s).2 = none →
    ∀ t ∈ ts, viewData g t.name = some (t.get (loadSlots g ts s).1)
  | [], _, _, _ => by simp
  | t :: ts, s, h, hok => by
    rw [loadSlots] at hok ⊢
    rcases hr : copyArrayFromView g t.name (t.get s).length with e | v
    · rw [hr] at hok; simp at hok
    · rw [hr] at hok
      have hv := copyArrayFromView_ok_iff.1 hr
      have ho := (List.pairwise_cons.1 h.other).1
      intro u hu
      rcases List.mem_cons.1 hu with rfl | hu
      · change viewData g u.name = some (u.get (loadSlots g ts (u.set v s)).1)
        rw [loadSlots_frame g u.get ts _ fun w hw v' s' => (ho w hw v' s').1,
          h.self u (by simp), hv.1]
      · exact loadSlots_holds g ts (t.set v s) h.tail hok u hu

end

end Hiop.Checkpoint
