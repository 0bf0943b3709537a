import Verif.Mem.Model

/-!
# Memory spaces: what is proved (C81)
-/

namespace Hiop.Mem

open Function

variable {K : Type}

/-! ## Specification -/

/-- The content of cell `i` of array `id`, if there is such a cell. -/
def read (h : Heap K) (id i : ℕ) : Option K :=
  (h.blk id).bind fun b => if i < b.len then some (b.data i) else none

/-- Who allocated array `id`, and how long it is. -/
def owner (h : Heap K) (id : ℕ) : Option (Backend × ℕ) := (h.blk id).map fun b => (b.mgr, b.len)

/-- `n` cells from `p` on lie in an array of backend `b`: the documented precondition of the copies. -/
def Holds (h : Heap K) (b : Backend) (p : Ptr) (n : ℕ) : Prop :=
  ∃ len, owner h p.id = some (b, len) ∧ p.off + n ≤ len

/-- The name `next` and those after it are not in use. -/
def Fresh (h : Heap K) : Prop := ∀ id, h.next ≤ id → h.blk id = none

/-- `h'` is `h` with `n` cells copied from `s` to `d`: those cells, no others, and no array more or less. -/
structure Copied (h h' : Heap K) (d s : Ptr) (n : ℕ) : Prop where
  written : ∀ i < n, read h' d.id (d.off + i) = read h s.id (s.off + i)
  kept : ∀ id i, ¬ (id = d.id ∧ d.off ≤ i ∧ i < d.off + n) → read h' id i = read h id i
  arrays : ∀ id, owner h' id = owner h id

/-- The backends that exist: Umpire has the spaces `HOST`, `DEVICE` and `UM`. -/
def Usable : Backend → Prop
  | .umpire s => s = "HOST" ∨ s = "DEVICE" ∨ s = "UM"
  | _ => True

/-- Memory of a GPU interface. -/
def Gpu (b : Backend) : Prop := b = .cuda ∨ b = .hip

/-- The pairs of backends between which HiOp can copy: all but two different GPU interfaces, and a GPU interface with
Umpire's unified memory. -/
def Supported (d s : Backend) : Prop :=
  ¬ (Gpu d ∧ Gpu s ∧ d ≠ s) ∧ ¬ (Gpu d ∧ s = .umpire "UM") ∧ ¬ (d = .umpire "UM" ∧ Gpu s)

/-! ## Copies -/

theorem holds_blk {h : Heap K} {b : Backend} {p : Ptr} {n : ℕ} (hh : Holds h b p n) :
    ∃ bl, h.blk p.id = some bl ∧ bl.mgr = b ∧ p.off + n ≤ bl.len := by
  obtain ⟨len, h1, h2⟩ := hh
  unfold owner at h1
  rcases hb : h.blk p.id with _ | bl
  · rw [hb] at h1; simp at h1
  · rw [hb] at h1
    simp only [Option.map_some, Option.some.injEq, Prod.mk.injEq] at h1
    exact ⟨bl, rfl, h1.1, by omega⟩

theorem copyCells_copied {h : Heap K} {d s : Ptr} {n : ℕ} {bd bs : Block K} (hd : h.blk d.id = some bd)
    (hs : h.blk s.id = some bs) (ld : d.off + n ≤ bd.len) (ls : s.off + n ≤ bs.len) :
    Copied h (copyCells h d s n bd bs) d s n := by
  refine ⟨fun i hi => ?_, fun id i hn => ?_, fun id => ?_⟩
  · simp only [read, copyCells, update_self, hs, Option.bind_some]
    rw [if_pos (by omega), if_pos (by omega), if_pos (by omega), Nat.add_sub_cancel_left]
  · by_cases e : id = d.id
    · subst e
      simp only [read, copyCells, update_self, hd, Option.bind_some]
      rw [if_neg (show ¬ (d.off ≤ i ∧ i < d.off + n) from fun hc => hn ⟨rfl, hc⟩)]
    · simp only [read, copyCells, update_of_ne e]
  · by_cases e : id = d.id
    · subst e
      simp [owner, copyCells, hd]
    · simp only [owner, copyCells, update_of_ne e]

theorem copied_refl (h : Heap K) (d s : Ptr) : Copied h h d s 0 :=
  ⟨fun _ hi => absurd hi (Nat.not_lt_zero _), fun _ _ _ => rfl, fun _ => rfl⟩

theorem memcpy_ok {h : Heap K} {bd bs : Backend} {d s : Ptr} {n : ℕ} (hd : Holds h bd d n) (hs : Holds h bs s n)
    (sd : bd.hostSide) (ss : bs.hostSide) (ho : ¬ overlap d s n) :
    ∃ h', memcpy d s n h = .done h' ∧ Copied h h' d s n := by
  obtain ⟨ad, d1, d2, d3⟩ := holds_blk hd
  obtain ⟨as, s1, s2, s3⟩ := holds_blk hs
  unfold memcpy
  by_cases hn : n = 0
  · subst hn
    exact ⟨h, if_pos rfl, copied_refl h d s⟩
  · rw [if_neg hn, d1, s1]
    simp only
    rw [if_pos ⟨by rw [d2]; exact sd, by rw [s2]; exact ss, d3, s3, ho⟩]
    exact ⟨_, rfl, copyCells_copied d1 s1 d3 s3⟩

theorem rmCopy_ok {h : Heap K} {bd bs : Backend} {d s : Ptr} {n : ℕ} (hn : 0 < n) (hd : Holds h bd d n)
    (hs : Holds h bs s n) (sd : bd.isUmpire) (ss : bs.isUmpire) (ho : ¬ overlap d s n) :
    ∃ h', rmCopy d s n h = .done h' ∧ Copied h h' d s n := by
  obtain ⟨ad, d1, d2, d3⟩ := holds_blk hd
  obtain ⟨as, s1, s2, s3⟩ := holds_blk hs
  unfold rmCopy
  rw [d1, s1]
  simp only
  have e : (if n = 0 then as.len - s.off else n) = n := if_neg (by omega)
  rw [if_pos ⟨by rw [d2]; exact sd, by rw [s2]; exact ss⟩, e, if_neg (by omega), if_neg ho]
  exact ⟨_, rfl, copyCells_copied d1 s1 d3 s3⟩

theorem gpu_ok {h : Heap K} {bd bs : Backend} {d s : Ptr} {n : ℕ} {dir : Dir} (hd : Holds h bd d n)
    (hs : Holds h bs s n) (hf : dir.fits bd bs) (ho : ¬ overlap d s n) :
    ∃ h', gpuMemcpy dir d s n h = .done (true, h') ∧ Copied h h' d s n := by
  obtain ⟨ad, d1, d2, d3⟩ := holds_blk hd
  obtain ⟨as, s1, s2, s3⟩ := holds_blk hs
  unfold gpuMemcpy
  by_cases hn : n = 0
  · subst hn
    exact ⟨h, if_pos rfl, copied_refl h d s⟩
  · rw [if_neg hn, d1, s1]
    simp only
    rw [if_pos ⟨d3, s3, ho⟩, if_pos (by rw [d2, s2]; exact hf)]
    exact ⟨_, rfl, copyCells_copied d1 s1 d3 s3⟩

theorem holds_alloc {h : Heap K} {b c : Backend} {p : Ptr} {n k : ℕ} {junk : ℕ → K} (hf : Fresh h)
    (hp : Holds h b p n) : Holds (alloc junk c k h).2 b p n ∧ p.id ≠ h.next := by
  obtain ⟨len, h1, h2⟩ := hp
  have hne : p.id ≠ h.next := by
    intro e
    rw [owner, e, hf _ (Nat.le_refl _)] at h1
    simp at h1
  refine ⟨⟨len, ?_, h2⟩, hne⟩
  rw [← h1]
  simp only [owner, alloc, update_of_ne hne]

theorem holds_new (h : Heap K) (b : Backend) (n : ℕ) (junk : ℕ → K) :
    Holds (alloc junk b n h).2 b (alloc junk b n h).1 n :=
  ⟨n, by simp [owner, alloc], by simp [alloc]⟩

theorem holds_copied {h h' : Heap K} {b : Backend} {d s p : Ptr} {n k : ℕ} (hc : Copied h h' d s n)
    (hp : Holds h b p k) : Holds h' b p k := by
  obtain ⟨len, h1, h2⟩ := hp
  exact ⟨len, by rw [hc.arrays, h1], h2⟩

theorem dealloc_ok {h : Heap K} {b : Backend} {p : Ptr} {len : ℕ} (hp : owner h p.id = some (b, len)) (ho : p.off = 0) :
    dealloc b p h = .done { h with blk := update h.blk p.id none } := by
  unfold owner at hp
  unfold dealloc
  rcases hb : h.blk p.id with _ | bl
  · rw [hb] at hp; simp at hp
  · rw [hb] at hp
    simp only [Option.map_some, Option.some.injEq, Prod.mk.injEq] at hp
    simp only
    rw [if_pos ⟨hp.1, ho⟩]

/-- Two copies through a new array that is freed afterwards are one copy. -/
theorem via_temp {h h2 h3 : Heap K} {d s : Ptr} {n : ℕ} {junk : ℕ → K} (hf : Fresh h) {bd bs : Backend}
    (hd : Holds h bd d n) (hs : Holds h bs s n)
    (c1 : Copied (alloc junk (.umpire "HOST") n h).2 h2 (alloc junk (.umpire "HOST") n h).1 s n)
    (c2 : Copied h2 h3 d (alloc junk (.umpire "HOST") n h).1 n) :
    ∃ h4, dealloc (.umpire "HOST") (alloc junk (.umpire "HOST") n h).1 h3 = .done h4 ∧ Copied h h4 d s n := by
  have dne := (holds_alloc (c := .umpire "HOST") (k := n) (junk := junk) hf hd).2
  have sne := (holds_alloc (c := .umpire "HOST") (k := n) (junk := junk) hf hs).2
  have hown : owner h3 h.next = some (.umpire "HOST", n) := by
    rw [c2.arrays, c1.arrays]; simp [owner, alloc]
  have hnew : ∀ id, id ≠ h.next → ∀ i, read (alloc junk (.umpire "HOST") n h).2 id i = read h id i := by
    intro id hid i
    simp only [read, alloc, update_of_ne hid]
  have hnone : h.blk h.next = none := hf _ (Nat.le_refl _)
  refine ⟨_, dealloc_ok (p := (alloc junk (.umpire "HOST") n h).1) hown rfl, ?_, ?_, ?_⟩
  · intro i hi
    have e1 := c2.written i hi
    have e2 := c1.written i hi
    rw [hnew _ sne] at e2
    simp only [alloc] at e1 e2 ⊢
    rw [← e2, ← e1]
    simp only [read, update_of_ne dne]
  · intro id i hn
    by_cases e : id = h.next
    · subst e
      simp [read, alloc, hnone]
    · have e1 := c2.kept id i hn
      have e2 := c1.kept id i (fun hc => e hc.1)
      rw [hnew _ e] at e2
      rw [← e2, ← e1]
      simp only [read, alloc, update_of_ne e]
  · intro id
    by_cases e : id = h.next
    · subst e
      simp [owner, alloc, hnone]
    · have e1 := c2.arrays id
      have e2 := c1.arrays id
      have e3 : owner (alloc junk (.umpire "HOST") n h).2 id = owner h id := by
        simp only [owner, alloc, update_of_ne e]
      rw [← e3, ← e2, ← e1]
      simp only [owner, alloc, update_of_ne e]

/-- **C81, transfers.** Between every two memory backends that HiOp supports, for every number of elements (zero
included), every position inside the arrays and every content: the copy reports success, exactly the requested cells
receive the source's, and no array is left allocated or freed. -/
theorem C81_transfer (asserts : Bool) (junk : ℕ → K) (bd bs : Backend) (d s : Ptr) (n : ℕ) (h : Heap K)
    (hf : Fresh h) (ud : Usable bd) (us : Usable bs) (hsup : Supported bd bs) (hd : Holds h bd d n)
    (hs : Holds h bs s n) (ho : ¬ overlap d s n) :
    ∃ h', transfer asserts junk bd bs d s n h = .done (true, h') ∧ Copied h h' d s n := by
  have tH : (Backend.umpire "HOST").hostSide := Or.inl rfl
  have ovd : ∀ p : Ptr, p.id ≠ h.next → ¬ overlap p (alloc junk (.umpire "HOST") n h).1 n :=
    fun p hp hc => hp hc.1
  have ovs : ∀ p : Ptr, p.id ≠ h.next → ¬ overlap (alloc junk (.umpire "HOST") n h).1 p n :=
    fun p hp hc => hp hc.1.symm
  have ad := holds_alloc (c := .umpire "HOST") (k := n) (junk := junk) hf hd
  have as := holds_alloc (c := .umpire "HOST") (k := n) (junk := junk) hf hs
  have an := holds_new h (.umpire "HOST") n junk
  have wrap : ∀ {o : Out (Heap K)}, (∃ h', o = .done h' ∧ Copied h h' d s n) →
      ∃ h', (o.bind fun h => .done (true, h)) = .done (true, h') ∧ Copied h h' d s n := by
    rintro o ⟨h', rfl, hc⟩; exact ⟨h', rfl, hc⟩
  have chk : ∀ {o : Out (Bool × Heap K)}, (∃ h', o = .done (true, h') ∧ Copied h h' d s n) →
      ∃ h', checked asserts o = .done (true, h') ∧ Copied h h' d s n := by
    rintro o ⟨h', rfl, hc⟩; exact ⟨h', by simp [checked, Out.bind], hc⟩
  cases bd with
  | cpp =>
    cases bs with
    | cpp => exact wrap (memcpy_ok hd hs trivial trivial ho)
    | umpire sp =>
      simp only [transfer]
      by_cases hh : (Backend.umpire sp).isHost
      · rw [if_pos hh]
        exact wrap (memcpy_ok hd hs trivial (Or.inl (by simpa [Backend.isHost] using hh)) ho)
      · rw [if_neg hh]
        by_cases hn : 0 < n
        · rw [if_pos hn]
          obtain ⟨h2, e2, c1⟩ := rmCopy_ok hn an as.1 rfl rfl (ovs s as.2)
          obtain ⟨h3, e3, c2⟩ := memcpy_ok (holds_copied c1 ad.1) (holds_copied c1 an) trivial tH (ovd d ad.2)
          obtain ⟨h4, e4, c3⟩ := via_temp hf hd hs c1 c2
          exact ⟨h4, by rw [e2]; simp only [Out.bind]; rw [e3]; simp only; rw [e4], c3⟩
        · obtain rfl : n = 0 := by omega
          exact ⟨h, if_neg hn, copied_refl h d s⟩
    | cuda => exact chk (gpu_ok hd hs ⟨trivial, trivial⟩ ho)
    | hip => exact gpu_ok (dir := .deviceToHost) hd hs ⟨trivial, trivial⟩ ho
  | umpire sp =>
    cases bs with
    | cpp =>
      simp only [transfer]
      by_cases hh : (Backend.umpire sp).isHost
      · rw [if_pos hh]
        exact wrap (memcpy_ok hd hs (Or.inl (by simpa [Backend.isHost] using hh)) trivial ho)
      · rw [if_neg hh]
        by_cases hn : 0 < n
        · rw [if_pos hn]
          obtain ⟨h2, e2, c1⟩ := memcpy_ok an as.1 tH trivial (ovs s as.2)
          obtain ⟨h3, e3, c2⟩ := rmCopy_ok hn (holds_copied c1 ad.1) (holds_copied c1 an) rfl rfl (ovd d ad.2)
          obtain ⟨h4, e4, c3⟩ := via_temp hf hd hs c1 c2
          exact ⟨h4, by rw [e2]; simp only [Out.bind]; rw [e3]; simp only; rw [e4], c3⟩
        · obtain rfl : n = 0 := by omega
          exact ⟨h, if_neg hn, copied_refl h d s⟩
    | umpire sq =>
      simp only [transfer]
      by_cases hn : 0 < n
      · rw [if_pos hn]
        exact wrap (rmCopy_ok hn hd hs rfl rfl ho)
      · obtain rfl : n = 0 := by omega
        exact ⟨h, if_neg hn, copied_refl h d s⟩
    | cuda =>
      simp only [transfer, umpireGpu]
      rcases ud with rfl | rfl | rfl
      · exact gpu_ok (dir := .deviceToHost) hd hs ⟨tH, trivial⟩ ho
      · exact gpu_ok (dir := .deviceToDevice) hd hs ⟨Or.inl rfl, trivial⟩ ho
      · exact absurd ⟨rfl, Or.inl rfl⟩ hsup.2.2
    | hip =>
      simp only [transfer, umpireGpu]
      rcases ud with rfl | rfl | rfl
      · exact gpu_ok (dir := .deviceToHost) hd hs ⟨tH, trivial⟩ ho
      · exact gpu_ok (dir := .deviceToDevice) hd hs ⟨Or.inl rfl, trivial⟩ ho
      · exact absurd ⟨rfl, Or.inr rfl⟩ hsup.2.2
  | cuda =>
    cases bs with
    | cpp => exact chk (gpu_ok hd hs ⟨trivial, trivial⟩ ho)
    | umpire sq =>
      simp only [transfer, umpireGpu]
      rcases us with rfl | rfl | rfl
      · exact gpu_ok (dir := .hostToDevice) hd hs ⟨trivial, tH⟩ ho
      · exact gpu_ok (dir := .deviceToDevice) hd hs ⟨trivial, Or.inl rfl⟩ ho
      · exact absurd ⟨Or.inl rfl, rfl⟩ hsup.2.1
    | cuda => exact chk (gpu_ok hd hs ⟨trivial, trivial⟩ ho)
    | hip => exact absurd ⟨Or.inl rfl, Or.inr rfl, by simp⟩ hsup.1
  | hip =>
    cases bs with
    | cpp => exact gpu_ok (dir := .hostToDevice) hd hs ⟨trivial, trivial⟩ ho
    | umpire sq =>
      simp only [transfer, umpireGpu]
      rcases us with rfl | rfl | rfl
      · exact gpu_ok (dir := .hostToDevice) hd hs ⟨trivial, tH⟩ ho
      · exact gpu_ok (dir := .deviceToDevice) hd hs ⟨trivial, Or.inl rfl⟩ ho
      · exact absurd ⟨Or.inr rfl, rfl⟩ hsup.2.1
    | cuda => exact absurd ⟨Or.inr rfl, Or.inl rfl, by simp⟩ hsup.1
    | hip => exact gpu_ok (dir := .deviceToDevice) hd hs ⟨trivial, trivial⟩ ho

/-- **C81, transfers that are not supported.** They never pretend to have succeeded: the copy reports failure and leaves
the memory as it was, or an assertion stops the program. -/
theorem C81_unsupported (asserts : Bool) (junk : ℕ → K) (bd bs : Backend) (d s : Ptr) (n : ℕ) (h : Heap K)
    (hsup : ¬ Supported bd bs) :
    transfer asserts junk bd bs d s n h = .done (false, h) ∨
      (asserts = true ∧ transfer asserts junk bd bs d s n h = .abort) := by
  have hu : ∀ dir, umpireGpu asserts (.umpire "UM") dir d s n h = .done (false, h) ∨
      (asserts = true ∧ umpireGpu asserts (.umpire "UM") dir d s n h = .abort) := by
    intro dir
    cases asserts
    · left; rfl
    · right; exact ⟨rfl, rfl⟩
  unfold Supported at hsup
  by_cases h1 : Gpu bd ∧ Gpu bs ∧ bd ≠ bs
  · obtain ⟨a, b, c⟩ := h1
    rcases a with rfl | rfl <;> rcases b with rfl | rfl
    · exact absurd rfl c
    · left; rfl
    · left; rfl
    · exact absurd rfl c
  · by_cases h2 : Gpu bd ∧ bs = .umpire "UM"
    · obtain ⟨a, rfl⟩ := h2
      rcases a with rfl | rfl <;> exact hu _
    · by_cases h3 : bd = .umpire "UM" ∧ Gpu bs
      · obtain ⟨rfl, a⟩ := h3
        rcases a with rfl | rfl <;> exact hu _
      · exact absurd ⟨h1, h2, h3⟩ hsup

/-! ## Mirrors -/

/-- The arrays of the object are allocated: one array, or one in its space and a mirror on the host if the space is on
the device. -/
structure Attached (v : Mirrored) (h : Heap K) : Prop where
  dev : owner h v.dev.id = some (v.mem, v.n)
  host : if v.mem.isDevice then v.host.id ≠ v.dev.id ∧ owner h v.host.id = some (v.mem.hostOf, v.n) else v.host = v.dev
  start : v.dev.off = 0 ∧ v.host.off = 0

theorem fresh_alloc {h : Heap K} {junk : ℕ → K} {b : Backend} {n : ℕ} (hf : Fresh h) : Fresh (alloc junk b n h).2 := by
  intro id hid
  simp only [alloc] at hid ⊢
  rw [update_of_ne (by omega)]
  exact hf _ (by omega)

/-- **C81, construction.** A new vector has its array in the requested space, a mirror in host memory if that space is on
the device, and no other array is touched. -/
theorem C81_new (junk : ℕ → K) (b : Backend) (n : ℕ) (h : Heap K) (hf : Fresh h) :
    Attached (vecNew junk b n h).1 (vecNew junk b n h).2 ∧ Fresh (vecNew junk b n h).2 ∧
      (vecNew junk b n h).1.mem = b ∧ (vecNew junk b n h).1.n = n ∧
      h.blk (vecNew junk b n h).1.dev.id = none ∧ h.blk (vecNew junk b n h).1.host.id = none ∧
      ∀ id, id ≠ (vecNew junk b n h).1.dev.id → id ≠ (vecNew junk b n h).1.host.id →
        (vecNew junk b n h).2.blk id = h.blk id := by
  unfold vecNew
  by_cases hd : b.isDevice
  · simp only [hd, if_true]
    refine ⟨⟨?_, ?_, rfl, rfl⟩, fresh_alloc (fresh_alloc hf), trivial, trivial, hf _ (Nat.le_refl _), hf _ (by simp [alloc]), ?_⟩
    · simp [owner, alloc, update]
    · simp only [hd, if_true]
      refine ⟨by simp [alloc], by simp [owner, alloc]⟩
    · intro id h1 h2
      simp only [alloc] at h1 h2 ⊢
      rw [update_of_ne h2, update_of_ne h1]
  · simp only [hd, Bool.false_eq_true, if_false]
    refine ⟨⟨?_, ?_, rfl, rfl⟩, fresh_alloc hf, trivial, trivial, hf _ (Nat.le_refl _), hf _ (Nat.le_refl _), ?_⟩
    · simp [owner, alloc]
    · simp [hd]
    · intro id h1 _
      simp only [alloc] at h1 ⊢
      rw [update_of_ne h1]

theorem supported_host {b : Backend} : Supported b b.hostOf ∧ Supported b.hostOf b := by
  cases b <;> simp [Supported, Gpu, Backend.hostOf]

theorem usable_host {b : Backend} : Usable b.hostOf := by
  cases b <;> simp [Usable, Backend.hostOf]

/-- **C81, the mirror.** Copying to the device makes the array in the memory space equal to the mirror, copying back makes
the mirror equal to the array, and neither changes any other cell or fails. -/
theorem C81_mirror (asserts : Bool) (junk : ℕ → K) (v : Mirrored) (h : Heap K) (hf : Fresh h) (hu : Usable v.mem)
    (ha : Attached v h) :
    (∃ h', copyToDev asserts junk v h = .done h' ∧ (∀ i, read h' v.dev.id i = read h v.host.id i) ∧
      (∀ id, id ≠ v.dev.id → ∀ i, read h' id i = read h id i) ∧ ∀ id, owner h' id = owner h id) ∧
    (∃ h', copyFromDev asserts junk v h = .done h' ∧ (∀ i, read h' v.host.id i = read h v.dev.id i) ∧
      (∀ id, id ≠ v.host.id → ∀ i, read h' id i = read h id i) ∧ ∀ id, owner h' id = owner h id) := by
  have out : ∀ {g : Heap K} {id len : ℕ} {b : Backend}, owner g id = some (b, len) → ∀ i, len ≤ i → read g id i = none := by
    intro g id len b ho i hi
    unfold owner at ho
    unfold read
    rcases hb : g.blk id with _ | bl
    · simp
    · rw [hb] at ho
      simp only [Option.map_some, Option.some.injEq, Prod.mk.injEq] at ho
      simp only [Option.bind_some]
      rw [if_neg (by omega)]
  have whole : ∀ {g : Heap K} {d s : Ptr} {bd bs : Backend}, Copied h g d s v.n → d.off = 0 → s.off = 0 →
      owner h d.id = some (bd, v.n) → owner h s.id = some (bs, v.n) →
      (∀ i, read g d.id i = read h s.id i) ∧ ∀ id, id ≠ d.id → ∀ i, read g id i = read h id i := by
    intro g d s bd bs hc d0 s0 hd hs
    refine ⟨fun i => ?_, fun id hid i => hc.kept id i fun e => hid e.1⟩
    by_cases hi : i < v.n
    · have := hc.written i hi
      rwa [d0, s0, Nat.zero_add] at this
    · rw [out hs i (by omega), out (by rw [hc.arrays, hd]) i (by omega)]
  by_cases hd : v.mem.isDevice
  · have hh := ha.host
    rw [if_pos hd] at hh
    have hne : ¬ v.dev = v.host := fun e => hh.1 (by rw [e])
    have hdv : Holds h v.mem v.dev v.n := ⟨v.n, ha.dev, by rw [ha.start.1]; omega⟩
    have hhv : Holds h v.mem.hostOf v.host v.n := ⟨v.n, hh.2, by rw [ha.start.2]; omega⟩
    constructor
    · obtain ⟨h', e, c⟩ := C81_transfer asserts junk v.mem v.mem.hostOf v.dev v.host v.n h hf hu usable_host
        supported_host.1 hdv hhv fun o => hh.1 o.1.symm
      obtain ⟨w1, w2⟩ := whole c ha.start.1 ha.start.2 ha.dev hh.2
      refine ⟨h', ?_, w1, w2, c.arrays⟩
      unfold copyToDev
      rw [if_neg hne, if_neg (by simp [hd]), e]
      rfl
    · obtain ⟨h', e, c⟩ := C81_transfer asserts junk v.mem.hostOf v.mem v.host v.dev v.n h hf usable_host hu
        supported_host.2 hhv hdv fun o => hh.1 o.1
      obtain ⟨w1, w2⟩ := whole c ha.start.2 ha.start.1 hh.2 ha.dev
      refine ⟨h', ?_, w1, w2, c.arrays⟩
      unfold copyFromDev
      rw [if_neg hne, e]
      rfl
  · have hh := ha.host
    rw [if_neg hd] at hh
    constructor
    · exact ⟨h, by unfold copyToDev; rw [if_pos hh.symm], fun i => by rw [hh], fun _ _ _ => rfl, fun _ => rfl⟩
    · exact ⟨h, by unfold copyFromDev; rw [if_pos hh.symm], fun i => by rw [hh], fun _ _ _ => rfl, fun _ => rfl⟩

/-- **C81, destruction.** Deleting a vector frees its arrays, each once and with the backend that allocated it, and
touches no other array. -/
theorem C81_delete (v : Mirrored) (h : Heap K) (ha : Attached v h) :
    ∃ h', vecDelete v h = .done h' ∧ h'.blk v.dev.id = none ∧ h'.blk v.host.id = none ∧
      ∀ id, id ≠ v.dev.id → id ≠ v.host.id → h'.blk id = h.blk id := by
  unfold vecDelete
  by_cases hd : v.mem.isDevice
  · have hh := ha.host
    rw [if_pos hd] at hh
    have hne : v.dev ≠ v.host := fun e => hh.1 (by rw [e])
    rw [if_pos hne, dealloc_ok hh.2 ha.start.2]
    simp only [Out.bind]
    rw [dealloc_ok (len := v.n) (by simp only [owner, update_of_ne (Ne.symm hh.1)]; exact ha.dev) ha.start.1]
    refine ⟨_, rfl, by simp, ?_, fun id h1 h2 => ?_⟩
    · simp only
      rw [update_of_ne hh.1, update_self]
    · simp only
      rw [update_of_ne h1, update_of_ne h2]
  · have hh := ha.host
    rw [if_neg hd] at hh
    rw [if_neg (by simp [hh])]
    simp only [Out.bind]
    rw [dealloc_ok ha.dev ha.start.1]
    refine ⟨_, rfl, by simp, by simp [hh], fun id h1 _ => ?_⟩
    simp only
    rw [update_of_ne h1]

set_option linter.unusedSimpArgs false in
/-- **C81, dense matrices.** Whatever was written into its arrays meanwhile, deleting a dense matrix leaves exactly the
arrays that were there before it was made: nothing leaks, nothing is freed twice or by another backend. -/
theorem C81_dense (junk : ℕ → K) (b : Backend) (sz m : ℕ) (h h1 : Heap K) (hf : Fresh h)
    (hw : ∀ id, owner h1 id = owner (denseNew junk b sz m h).2 id) :
    ∃ h2, denseDelete (denseNew junk b sz m h).1 h1 = .done h2 ∧ (∀ id, owner h2 id = owner h id) ∧
      ∀ id, owner h id ≠ none → ∀ i, read h2 id i = read h1 id i := by
  have hlt : ∀ id, owner h id ≠ none → id < h.next := by
    intro id hid
    by_contra hc
    exact hid (by rw [owner, hf id (by omega)]; rfl)
  have hnone : ∀ id, h.next ≤ id → owner h id = none := fun id hid => by rw [owner, hf id hid]; rfl
  have q1 : h.next ≠ h.next + 1 + 1 := by omega
  have q2 : h.next ≠ h.next + 1 + 1 + 1 := by omega
  have q3 : h.next + 1 + 1 ≠ h.next := by omega
  unfold denseNew at hw ⊢
  by_cases hd : b.isDevice
  · simp only [hd, if_true, alloc] at hw ⊢
    have o0 : owner h1 h.next = some (b, sz) := by
      rw [hw]; simp [owner, update, q1, q2, q3]
    have o1 : owner h1 (h.next + 1) = some (b.hostOf, sz) := by
      rw [hw]; simp [owner, update, q1, q2, q3]
    have o2 : owner h1 (h.next + 1 + 1) = some (b.hostOf, m) := by
      rw [hw]; simp [owner, update, q1, q2, q3]
    have o3 : owner h1 (h.next + 1 + 1 + 1) = some (b.hostOf, m) := by
      rw [hw]; simp [owner, update, q1, q2, q3]
    unfold denseDelete
    simp only
    rw [if_pos (by simp), dealloc_ok (p := ⟨h.next + 1, 0⟩) o1 rfl]
    simp only [Out.bind]
    rw [dealloc_ok (p := ⟨h.next + 1 + 1, 0⟩) (len := m) (by rw [← o2]; simp [owner, update, q1, q2, q3]) rfl]
    simp only
    rw [dealloc_ok (p := ⟨h.next + 1 + 1 + 1, 0⟩) (len := m) (by rw [← o3]; simp [owner, update, q1, q2, q3]) rfl]
    simp only
    rw [dealloc_ok (p := ⟨h.next, 0⟩) (len := sz) (by rw [← o0]; simp [owner, update, q1, q2, q3]) rfl]
    refine ⟨_, rfl, fun id => ?_, fun id hid i => ?_⟩
    · by_cases e0 : id = h.next
      · rw [hnone id (by omega)]; simp [owner, update, e0]
      by_cases e1 : id = h.next + 1
      · rw [hnone id (by omega)]; simp [owner, update, e1]
      by_cases e2 : id = h.next + 1 + 1
      · rw [hnone id (by omega)]; simp [owner, update, e2]
      by_cases e3 : id = h.next + 1 + 1 + 1
      · rw [hnone id (by omega)]; simp [owner, update, e3]
      have := hw id
      simp only [owner, update_of_ne e0, update_of_ne e1, update_of_ne e2, update_of_ne e3] at this ⊢
      exact this
    · have := hlt id hid
      simp only [read]
      rw [update_of_ne (by omega), update_of_ne (by omega), update_of_ne (by omega), update_of_ne (by omega)]
  · simp only [hd, Bool.false_eq_true, if_false, alloc] at hw ⊢
    have o0 : owner h1 h.next = some (b, sz) := by
      rw [hw]; simp [owner, update, q1, q2, q3]
    have o1 : owner h1 (h.next + 1) = some (b, m) := by
      rw [hw]; simp [owner, update, q1, q2, q3]
    have o2 : owner h1 (h.next + 1 + 1) = some (b, m) := by
      rw [hw]; simp [owner, update, q1, q2, q3]
    unfold denseDelete
    simp only
    rw [if_neg (by simp), dealloc_ok (p := ⟨h.next + 1, 0⟩) o1 rfl]
    simp only [Out.bind]
    rw [dealloc_ok (p := ⟨h.next + 1 + 1, 0⟩) (len := m) (by rw [← o2]; simp [owner, update, q1, q2, q3]) rfl]
    simp only
    rw [dealloc_ok (p := ⟨h.next, 0⟩) (len := sz) (by rw [← o0]; simp [owner, update, q1, q2, q3]) rfl]
    refine ⟨_, rfl, fun id => ?_, fun id hid i => ?_⟩
    · by_cases e0 : id = h.next
      · rw [hnone id (by omega)]; simp [owner, update, e0]
      by_cases e1 : id = h.next + 1
      · rw [hnone id (by omega)]; simp [owner, update, e1]
      by_cases e2 : id = h.next + 1 + 1
      · rw [hnone id (by omega)]; simp [owner, update, e2]
      have := hw id
      simp only [owner, update_of_ne e0, update_of_ne e1, update_of_ne e2] at this ⊢
      exact this
    · have := hlt id hid
      simp only [read]
      rw [update_of_ne (by omega), update_of_ne (by omega), update_of_ne (by omega)]

/-! ## The factory -/

/-- The memory in which an object asked for in space `u` (in capitals) has to be. -/
def wanted (u : String) : Backend :=
  if u = "DEFAULT" then .cpp else if u = "CUDA" then .cuda else if u = "HIP" then .hip else .umpire u

/-- Loops run by the host need memory the host reaches, kernels need memory the device reaches. -/
def CanRun : Policy → Backend → Prop
  | .seq, m | .rajaOmp, m => m.hostSide
  | _, m => m.devSide

theorem char_upper (c : Char) : c.toUpper.toUpper = c.toUpper := by
  unfold Char.toUpper
  by_cases h : 'a'.val ≤ c.val ∧ c.val ≤ 'z'.val
  · rw [dif_pos h, dif_neg]
    rintro ⟨h1, -⟩
    obtain ⟨a1, a2⟩ := h
    rw [UInt32.le_iff_toNat_le] at h1 a1 a2
    simp only [UInt32.toNat_add, UInt32.toNat_sub] at h1
    have e1 : ('a'.val).toNat = 97 := rfl
    have e2 : ('z'.val).toNat = 122 := rfl
    have e3 : ('A'.val).toNat = 65 := rfl
    rw [e1] at h1 a1
    rw [e2] at a2
    rw [e3] at h1
    omega
  · rw [dif_neg h, dif_neg h]

theorem toupper_toupper (s : String) : toupper (toupper s) = toupper s := by
  simp only [toupper, String.toUpper, String.map_map]
  congr 1
  funext c
  exact char_upper c

theorem up_um : toupper "um" = "UM" := by
  apply String.toList_injective
  simp only [toupper, String.toUpper, String.toList_map]
  decide

theorem up_host : toupper "host" = "HOST" := by
  apply String.toList_injective
  simp only [toupper, String.toUpper, String.toList_map]
  decide

theorem up_device : toupper "device" = "DEVICE" := by
  apply String.toList_injective
  simp only [toupper, String.toUpper, String.toList_map]
  decide

/-- `createIn` for a name of one of Umpire's spaces. -/
theorem createIn_umpire {b : Build} {k : Kind} {mem : String}
    (h : toupper mem = "DEVICE" ∨ toupper mem = "UM" ∨ toupper mem = "HOST") :
    createIn b k mem = if b.raja then rajaNew b k (toupper mem) (rajaPolicy b) else refuse b := by
  have hn : toupper mem ≠ "DEFAULT" ∧ toupper mem ≠ "CUDA" ∧ toupper mem ≠ "HIP" := by
    rcases h with e | e | e <;> rw [e] <;> decide
  obtain ⟨n1, n2, n3⟩ := hn
  unfold createIn info
  simp only [if_neg n1, if_neg n2, if_neg n3]
  rw [if_neg (fun hc => hc.2 h)]
  simp [create, toupper_toupper, n1]

/-- An object the factory hands out, by cases. -/
theorem created {b : Build} {k : Kind} {mem : String} {o : Obj} (h : createIn b k mem = .obj o) :
    (toupper mem = "DEFAULT" ∧ o = hostObj) ∨
    (toupper mem = "CUDA" ∧ b.cuda ∧ (o = ⟨.cuda, .cuda⟩ ∨ o = ⟨.cuda, .rajaCuda⟩)) ∨
    (toupper mem = "HIP" ∧ b.hip ∧ o = ⟨.hip, .hip⟩) ∨
    (toupper mem ≠ "DEFAULT" ∧ toupper mem ≠ "CUDA" ∧ toupper mem ≠ "HIP" ∧ b.raja ∧
      rajaNew b k (toupper mem) (rajaPolicy b) = .obj o) := by
  unfold createIn info at h
  simp only at h
  by_cases h1 : toupper mem = "DEFAULT"
  · rw [if_pos h1] at h
    simp only [create, toupper_toupper, if_pos h1, Made.obj.injEq] at h
    exact Or.inl ⟨h1, h.symm⟩
  rw [if_neg h1] at h
  by_cases h2 : toupper mem = "CUDA"
  · rw [if_pos h2] at h
    right; left
    refine ⟨h2, ?_⟩
    simp only [create, toupper_toupper, if_neg h1, refuse] at h
    cases k <;> cases hc : b.cuda <;> cases ha : b.asserts <;> simp_all
  rw [if_neg h2] at h
  by_cases h3 : toupper mem = "HIP"
  · rw [if_pos h3] at h
    right; right; left
    refine ⟨h3, ?_⟩
    simp only [create, toupper_toupper, if_neg h1, refuse] at h
    cases k <;> cases hc : b.hip <;> cases ha : b.asserts <;> simp_all
  rw [if_neg h3] at h
  right; right; right
  refine ⟨h1, h2, h3, ?_⟩
  by_cases h4 : b.asserts ∧ ¬ (toupper mem = "DEVICE" ∨ toupper mem = "UM" ∨ toupper mem = "HOST")
  · rw [if_pos h4] at h; cases h
  · rw [if_neg h4] at h
    simp only [create, toupper_toupper, if_neg h1, if_true, refuse] at h
    cases hr : b.raja
    · cases ha : b.asserts <;> simp_all
    · exact ⟨rfl, by simpa [hr] using h⟩

/-- **C81, placement.** Whatever the build and the name of the memory space, an object the factory hands out is in the
memory asked for. Missing: sparse matrices in builds without a GPU, see `C81_placement_refuted`. -/
theorem C81_placement_partial (b : Build) (k : Kind) (mem : String) (o : Obj) (h : createIn b k mem = .obj o)
    (hk : (b.cuda ∨ b.hip) ∨ (k ≠ .sparse ∧ k ≠ .symSparse)) : o.mem = wanted (toupper mem) := by
  rcases created h with ⟨h1, rfl⟩ | ⟨h1, -, rfl | rfl⟩ | ⟨h1, -, rfl⟩ | ⟨h1, h2, h3, -, h4⟩
  · simp [wanted, h1, hostObj]
  · simp [wanted, h1]
  · simp [wanted, h1]
  · simp [wanted, h1]
  · rw [wanted, if_neg h1, if_neg h2, if_neg h3]
    unfold rajaNew at h4
    cases k with
    | sparse | symSparse =>
      have hg : b.cuda ∨ b.hip := hk.resolve_right (by simp)
      simp only [if_pos hg] at h4
      split_ifs at h4
      · cases h4; rfl
    | vec | vecInt | dense =>
      simp only at h4
      split_ifs at h4
      · cases h4; rfl

/-- **C81, sparse matrices without a GPU.** Asked for unified or device memory, such builds hand out sparse matrices in
host memory. -/
theorem C81_placement_refuted :
    createIn ⟨true, false, false, true⟩ .sparse "um" = .obj ⟨.umpire "HOST", .rajaOmp⟩ ∧
      wanted (toupper "um") = .umpire "UM" := by
  rw [createIn_umpire (Or.inr (Or.inl up_um)), up_um]
  decide

/-- **C81, execution.** The loops of an object reach its memory, unless it was asked for in Umpire's `HOST` space in a
build for a GPU. -/
theorem C81_runs_partial (b : Build) (k : Kind) (mem : String) (o : Obj) (h : createIn b k mem = .obj o)
    (hk : (b.cuda ∨ b.hip) → toupper mem ≠ "HOST") : CanRun o.run o.mem := by
  rcases created h with ⟨h1, rfl⟩ | ⟨h1, -, rfl | rfl⟩ | ⟨h1, -, rfl⟩ | ⟨h1, h2, h3, -, h4⟩
  · exact trivial
  · exact trivial
  · exact trivial
  · exact trivial
  · have key : ∀ s, umpireHas b s → ((b.cuda ∨ b.hip) → s ≠ "HOST") → CanRun (rajaPolicy b) (.umpire s) := by
      intro s hs hg
      unfold umpireHas at hs
      unfold rajaPolicy
      cases hc : b.cuda
      · cases hh : b.hip
        · simp only [hc, hh, Bool.false_eq_true, or_self, false_and, or_false, if_false] at hs ⊢
          exact Or.inl hs
        · have := hg (Or.inr hh)
          simp only [Bool.false_eq_true, if_false, if_true]
          exact (hs.resolve_left this).2
      · have := hg (Or.inl hc)
        simp only [if_true]
        exact (hs.resolve_left this).2
    unfold rajaNew at h4
    cases k with
    | sparse | symSparse =>
      simp only at h4
      by_cases hg : b.cuda ∨ b.hip
      · rw [if_pos hg] at h4
        split_ifs at h4 with hu
        · cases h4; exact key _ hu hk
      · rw [if_neg hg] at h4
        split_ifs at h4 with hu
        · cases h4; exact key _ hu fun g => absurd g hg
    | vec | vecInt | dense =>
      simp only at h4
      split_ifs at h4 with h5 hu
      · cases h4; exact key _ hu hk

/-- **C81 fails for `mem_space = host` in builds for a GPU.** Every RAJA object then has its arrays in host memory and
its loops run as kernels on the device. -/
theorem C81_runs_refuted (k : Kind) (asserts : Bool) :
    createIn ⟨true, true, false, asserts⟩ k "host" = .obj ⟨.umpire "HOST", .rajaCuda⟩ ∧
      ¬ CanRun .rajaCuda (.umpire "HOST") := by
  refine ⟨?_, ?_⟩
  · rw [createIn_umpire (Or.inr (Or.inr up_host)), up_host]
    cases k <;> cases asserts <;> decide
  simp [CanRun, Backend.devSide]

/-- **C81, what is served.** Every build hands out `default` objects of every kind; builds with RAJA hand out all kinds in
`host`, and with a GPU in `device` and `um`, however the name is spelled. -/
theorem C81_served (b : Build) (k : Kind) (mem : String)
    (hm : toupper mem = "DEFAULT" ∨ (b.raja ∧ (toupper mem = "HOST" ∨
      ((b.cuda ∨ b.hip) ∧ (toupper mem = "DEVICE" ∨ toupper mem = "UM"))))) : ∃ o, createIn b k mem = .obj o := by
  rcases hm with h1 | ⟨hr, h1⟩
  · exact ⟨hostObj, by
      have h2 : toupper "DEFAULT" = "DEFAULT" := by rw [← h1, toupper_toupper]
      simp [createIn, info, create, h1, h2]⟩
  · have hu : umpireHas b (toupper mem) := h1
    have hn : toupper mem ≠ "DEFAULT" ∧ toupper mem ≠ "CUDA" ∧ toupper mem ≠ "HIP" ∧
        (toupper mem = "DEVICE" ∨ toupper mem = "UM" ∨ toupper mem = "HOST") := by
      rcases h1 with e | ⟨-, e | e⟩ <;> rw [e] <;> decide
    obtain ⟨-, -, -, n4⟩ := hn
    have e : createIn b k mem = rajaNew b k (toupper mem) (rajaPolicy b) := by
      rw [createIn_umpire n4, if_pos hr]
    rw [e]
    unfold rajaNew
    cases k with
    | sparse | symSparse =>
      simp only
      by_cases hg : b.cuda ∨ b.hip
      · rw [if_pos hg, if_pos hu]; exact ⟨_, rfl⟩
      · rw [if_neg hg, if_pos (show umpireHas b "HOST" from Or.inl rfl)]; exact ⟨_, rfl⟩
    | vec | vecInt | dense =>
      simp only
      rw [if_neg, if_pos hu]
      · exact ⟨_, rfl⟩
      · rintro ⟨-, hg, hne⟩
        rcases h1 with e | ⟨g, -⟩
        · exact hne e
        · exact hg g

/-- **C81, refusals.** With assertions on, the factory never hands out a null pointer. -/
theorem C81_never_null (b : Build) (k : Kind) (mem : String) (ha : b.asserts) : createIn b k mem ≠ .null := by
  unfold createIn
  cases info b mem with
  | none => simp
  | some i =>
    simp only
    unfold create rajaNew refuse
    simp only [ha, if_true]
    cases k <;> simp only <;> split_ifs <;> simp

/-- **C81, refusals without assertions.** Then a request that cannot be met gives a null pointer; and with assertions a
RAJA build without a GPU stops on `device`, which its option accepts. -/
theorem C81_refusal_refuted :
    createIn ⟨false, false, false, false⟩ .vec "device" = .null ∧
    createIn ⟨true, false, false, true⟩ .vec "device" = .abort ∧
    createIn ⟨true, false, false, false⟩ .vec "device" = .throws := by
  simp only [createIn_umpire (Or.inl up_device), up_device]
  decide

/-- **C81, CSR matrices.** Asked for by the names the callers use, `DEFAULT` and `CUDA`, they are where they should be and
their loops reach them. Missing: other names, see `C81_csr_refuted`. -/
theorem C81_csr_partial (b : Build) (mem : String) (o : Obj) (h : createCsr b mem = .obj o)
    (hm : toupper mem = "DEFAULT" ∨ toupper mem = "CUDA") : o.mem = wanted (toupper mem) ∧ CanRun o.run o.mem := by
  unfold createCsr at h
  rcases hm with h1 | h1
  · rw [if_pos h1] at h
    cases h
    exact ⟨by simp [wanted, h1, hostObj], trivial⟩
  · rw [if_neg (by rw [h1]; decide)] at h
    split_ifs at h
    · cases h
      exact ⟨by simp [wanted, h1], trivial⟩
    · unfold refuse at h
      split_ifs at h

/-- **C81, CSR matrices by other names.** `host` gives a matrix on the device. -/
theorem C81_csr_refuted (asserts : Bool) :
    createCsr ⟨true, true, false, asserts⟩ "host" = .obj ⟨.cuda, .cuda⟩ ∧ wanted (toupper "host") = .umpire "HOST" := by
  unfold createCsr
  rw [up_host]
  cases asserts <;> decide

/-- **C81, raw arrays.** An array from `create_raw_array` is freed by `delete_raw_array`, if it is given the same space
in any spelling. -/
theorem C81_raw (b : Build) (mem mem' : String) (be : Backend) (junk : ℕ → K) (n : ℕ) (h h1 : Heap K)
    (hs : toupper mem' = toupper mem) (hc : createRaw b mem = some be)
    (hw : ∀ id, owner h1 id = owner (alloc junk be n h).2 id) :
    be = wanted (toupper mem) ∧
    ∃ be' h2, deleteRaw b mem' = some be' ∧ dealloc be' (alloc junk be n h).1 h1 = .done h2 ∧
      h2.blk (alloc junk be n h).1.id = none ∧ ∀ id ≠ (alloc junk be n h).1.id, h2.blk id = h1.blk id := by
  refine ⟨?_, be, ?_⟩
  · unfold createRaw at hc
    by_cases h1 : toupper mem = "DEFAULT"
    · rw [if_pos h1] at hc; cases hc; simp [wanted, h1]
    · rw [if_neg h1] at hc
      split_ifs at hc with h2 h3
      · cases hc
        have : toupper mem ≠ "CUDA" ∧ toupper mem ≠ "HIP" := by
          rcases h3 with e | ⟨-, e | e⟩ <;> rw [e] <;> decide
        simp [wanted, h1, this.1, this.2]
  · have hd : dealloc be (alloc junk be n h).1 h1 = _ :=
      dealloc_ok (p := (alloc junk be n h).1) (len := n) (by rw [hw]; simp [owner, alloc]) rfl
    refine ⟨_, ?_, hd, by simp, fun id hid => by simp [update_of_ne hid]⟩
    unfold deleteRaw
    rw [hs]
    exact hc

/-! ## Concrete cases -/

-- a host array of 3 cells and a device array of 5 cells
example : let h : Heap ℕ := ⟨2, fun id => if id = 0 then some ⟨.cpp, 3, fun i => i⟩
      else if id = 1 then some ⟨.umpire "DEVICE", 5, fun _ => 7⟩ else none⟩
    Fresh h ∧ Usable (.umpire "DEVICE") ∧ Supported (.umpire "DEVICE") .cpp ∧ Holds h (.umpire "DEVICE") ⟨1, 2⟩ 3 ∧
      Holds h .cpp ⟨0, 0⟩ 3 ∧ ¬ overlap ⟨1, 2⟩ ⟨0, 0⟩ 3 := by
  refine ⟨fun id hid => ?_, Or.inr (Or.inl rfl), by simp [Supported, Gpu], ⟨5, by simp [owner], by simp⟩,
    ⟨3, by simp [owner], by simp⟩, by simp [overlap]⟩
  simp only at hid ⊢
  rw [if_neg (by omega), if_neg (by omega)]

-- a vector in device memory has a mirror of its own
example : let r := vecNew (fun _ => (0 : ℕ)) (.umpire "DEVICE") 4 ⟨0, fun _ => none⟩
    Attached r.1 r.2 ∧ r.1.dev ≠ r.1.host :=
  ⟨(C81_new _ _ _ _ fun _ _ => rfl).1, by decide⟩

-- requests that are met
example : createIn ⟨true, true, false, true⟩ .dense "device" = .obj ⟨.umpire "DEVICE", .rajaCuda⟩ ∧
    createIn ⟨true, false, false, true⟩ .vec "host" = .obj ⟨.umpire "HOST", .rajaOmp⟩ ∧
    createRaw ⟨true, true, false, true⟩ "um" = some (.umpire "UM") := by
  simp only [createIn_umpire (Or.inl up_device), createIn_umpire (Or.inr (Or.inr up_host)), createRaw, up_device, up_host,
    up_um]
  decide

end Hiop.Mem
