import Verif.Mpi.Props

/-!
# C34: the residual and the quasi-Newton matrix on any number of ranks
-/

namespace Hiop.Mpi

open Hiop.Vec Hiop.Iterate Hiop.Kkt

set_option linter.unusedSectionVars false

variable {N P mc m : ℕ} {p : Part N P}

/-! ## Residual -/

/-- The counters are the numbers of entries of the patterns equal to 1, and the patterns hold 0 and
1 only. -/
structure TrueCounts {n : ℕ} (b : Bounds ℝ n m) (cn : Counts) : Prop where
  low : cn.nLow = (Finset.univ.filter fun i => b.ixl i = 1).card
  upp : cn.nUpp = (Finset.univ.filter fun i => b.ixu i = 1).card
  dlow : cn.mLow = (Finset.univ.filter fun i => b.idl i = 1).card
  dupp : cn.mUpp = (Finset.univ.filter fun i => b.idu i = 1).card
  ixl : ∀ i, b.ixl i = 0 ∨ b.ixl i = 1
  ixu : ∀ i, b.ixu i = 0 ∨ b.ixu i = 1

section blocks

variable {n : ℕ}

theorem all_of_count {sel : RVec ℝ n} {cnt : ℤ}
    (hc : cnt = (Finset.univ.filter fun i => sel i = 1).card) (h : ¬ cnt < (n : ℤ)) (i : Fin n) :
    sel i = 1 := by
  have h1 : (Finset.univ.filter fun i => sel i = 1).card = (Finset.univ : Finset (Fin n)).card := by
    have := Finset.card_filter_le (Finset.univ : Finset (Fin n)) (fun i => sel i = 1)
    simp only [Finset.card_univ, Fintype.card_fin] at this ⊢
    omega
  have := (Finset.card_filter_eq_iff.1 h1) i (Finset.mem_univ i)
  exact this

theorem none_of_count {sel : RVec ℝ n} {cnt : ℤ}
    (hc : cnt = (Finset.univ.filter fun i => sel i = 1).card) (h : ¬ cnt > 0) (i : Fin n) :
    sel i ≠ 1 := by
  intro hi
  have : 0 < (Finset.univ.filter fun i => sel i = 1).card :=
    Finset.card_pos.2 ⟨i, by simp [hi]⟩
  omega

/-- A block that skips the selection when every bound is present is the selected block. -/
theorem select_all {sel : RVec ℝ n} {cnt : ℤ}
    (hc : cnt = (Finset.univ.filter fun i => sel i = 1).card) (v : RVec ℝ n) :
    (if cnt < (n : ℤ) then Vec.selectPattern v sel else v) = Vec.selectPattern v sel := by
  split
  · rfl
  · rename_i h
    funext i
    simp [Vec.selectPattern, all_of_count hc h i]

theorem compRes0_eq {sel : RVec ℝ n} {cnt : ℤ}
    (hc : cnt = (Finset.univ.filter fun i => sel i = 1).card) (s z : RVec ℝ n) :
    Resid.compRes0 cnt sel s z = Vec.selectPattern (axzpy (zeroVec n) (-1) s z) sel :=
  select_all hc _

theorem infnorm_zero_of {v : RVec ℝ n} (h : ∀ i, v i = 0) : infnorm v = 0 :=
  le_antisymm ((infnorm_le_iff _ _ le_rfl).2 fun i => by rw [h i, abs_zero]) (infnorm_nonneg _)

theorem bump_eq {sel : RVec ℝ n} {cnt : ℤ} (hc : cnt = (Finset.univ.filter fun i => sel i = 1).card)
    (h01 : ∀ i, sel i = 0 ∨ sel i = 1) {acc : ℝ} (ha : 0 ≤ acc) (v w : RVec ℝ n)
    (hw : cnt > 0 → w = v) (h0 : ∀ i, sel i = 0 → v i = 0) :
    Resid.bump cnt acc w = max acc (infnorm v) := by
  unfold Resid.bump
  split
  · rename_i h; rw [hw h]
  · rename_i h
    rw [infnorm_zero_of, max_eq_left ha]
    intro i
    exact h0 i ((h01 i).resolve_right (none_of_count hc h i))

end blocks

theorem bump_nonneg {n : ℕ} (cnt : ℤ) {acc : ℝ} (ha : 0 ≤ acc) (v : RVec ℝ n) :
    0 ≤ Resid.bump cnt acc v := by
  unfold Resid.bump
  split
  · exact ha.trans (le_max_left _ _)
  · exact ha

/-- The complementarity block with every absent bound zeroed. -/
noncomputable def comp {n : ℕ} (sel s z : RVec ℝ n) (mu : ℝ) : RVec ℝ n :=
  addConstantSel (Vec.selectPattern (axzpy (zeroVec n) (-1) s z) sel) mu sel

theorem scatter_comp (p : Part N P) (sel s z : RVec ℝ N) (mu : ℝ) (r : Fin P) :
    comp (scatter p sel r) (scatter p s r) (scatter p z r) mu = scatter p (comp sel s z mu) r := by
  unfold comp axzpy; split_ifs <;> rfl

theorem scatter_comp0 (p : Part N P) (sel s z : RVec ℝ N) (r : Fin P) :
    Vec.selectPattern (axzpy (zeroVec (p.len r)) (-1) (scatter p s r) (scatter p z r)) (scatter p sel r)
      = scatter p (Vec.selectPattern (axzpy (zeroVec N) (-1) s z) sel) r := by
  unfold axzpy; split_ifs <;> rfl

theorem compRes_eq {n : ℕ} {sel : RVec ℝ n} {cnt : ℤ}
    (hc : cnt = (Finset.univ.filter fun i => sel i = 1).card) (old s z : RVec ℝ n) (mu : ℝ)
    (h : cnt > 0) : Resid.compRes cnt sel old s z mu = comp sel s z mu := by
  unfold Resid.compRes comp
  rw [if_pos h, compRes0_eq hc]

theorem comp_zero {n : ℕ} (sel s z : RVec ℝ n) (mu : ℝ) (i : Fin n) (h : sel i = 0) :
    comp sel s z mu i = 0 := by
  simp [comp, addConstantSel, Vec.selectPattern, h]

theorem slackRes_eq {n : ℕ} {sel : RVec ℝ n} {cnt : ℤ}
    (hc : cnt = (Finset.univ.filter fun i => sel i = 1).card) (old a b c : RVec ℝ n)
    (h : cnt > 0) :
    Resid.slackRes cnt false sel old a b c = Vec.selectPattern (axpy (axpy a (-1) b) (-1) c) sel := by
  unfold Resid.slackRes
  rw [if_pos h]
  simp only [Bool.false_eq_true, false_or]
  exact select_all hc _

/-- The infinity norms of a complementarity part, for serial and local data. -/
noncomputable def complNorm {n : ℕ} (cn : Counts) (vl vu : RVec ℝ n)
    (wl wu : RVec ℝ m) : ℝ :=
  Resid.bump cn.mUpp (Resid.bump cn.mLow (max (max 0 (infnorm vl)) (infnorm vu)) wl) wu

theorem rx_scatter (p : Part N P) (b : Bounds ℝ N m) (it : It ℝ N mc m) (e : Resid.Eval N mc m)
    (r : Fin P) :
    negate (Barrier.addNonLogBarTermsToGradX (scatterBounds p b r) (scatterEval p e r).mu
      (scatterEval p e r).kappad 1 (Resid.rxPlain (scatterIt p it r) (scatterEval p e r)))
      = scatter p (negate (Barrier.addNonLogBarTermsToGradX b e.mu e.kappad 1 (Resid.rxPlain it e))) r := by
  unfold Barrier.addNonLogBarTermsToGradX
  by_cases h : e.kappad > 0
  · have h' : (scatterEval p e r).kappad > 0 := h
    rw [if_pos h, if_pos h']; rfl
  · have h' : ¬ (scatterEval p e r).kappad > 0 := h
    rw [if_neg h, if_neg h']; rfl

/-- **C34.** The residual. With true counters on every rank, the norms every rank obtains are those
of the serial residual. The blocks for the gradient and the constraints are the pieces of the serial
blocks (the constraint blocks in full); so are the blocks of the bounds on the ranks that hold a
bound of that kind. -/
theorem C34_residual (dblMax : ℝ) (b : Bounds ℝ N m) (cn : Counts) (cnr : Fin P → Counts)
    (it : It ℝ N mc m) (e : Resid.Eval N mc m) (old : Resid.RState N mc m)
    (oldr out : ∀ r : Fin P, Resid.RState (p.len r) mc m)
    (hc : TrueCounts b cn) (hcr : ∀ r, TrueCounts (scatterBounds p b r) (cnr r))
    (hout : updateD dblMax (scatterBounds p b) cnr (scatterIt p it) (scatterEval p e) oldr out) (r : Fin P) :
    (out r).nr = (Resid.update dblMax b cn it e old).nr ∧
    (let v := (Resid.update dblMax b cn it e old).v
     (out r).v.rx = scatter p v.rx r ∧ (out r).v.rd = v.rd ∧
     (out r).v.ryc = v.ryc ∧ (out r).v.ryd = v.ryd ∧
     (0 < (cnr r).nLow → (out r).v.rxl = scatter p v.rxl r ∧ (out r).v.rszl = scatter p v.rszl r) ∧
     (0 < (cnr r).nUpp → (out r).v.rxu = scatter p v.rxu r ∧ (out r).v.rszu = scatter p v.rszu r) ∧
     (0 < cn.mLow → (out r).v.rdl = v.rdl ∧ (out r).v.rsvl = v.rsvl) ∧
     (0 < cn.mUpp → (out r).v.rdu = v.rdu ∧ (out r).v.rsvu = v.rsvu)) := by
  have hml : ∀ r, (cnr r).mLow = cn.mLow := fun r => by rw [(hcr r).dlow, hc.dlow]; rfl
  have hmu : ∀ r, (cnr r).mUpp = cn.mUpp := fun r => by rw [(hcr r).dupp, hc.dupp]; rfl
  have posl : ∀ r, 0 < (cnr r).nLow → cn.nLow > 0 := by
    intro r h
    rw [(hcr r).low] at h
    have h : 0 < (Finset.univ.filter fun i => (scatterBounds p b r).ixl i = 1).card := by exact_mod_cast h
    obtain ⟨i, hi⟩ := Finset.card_pos.1 h
    rw [hc.low]
    have : 0 < (Finset.univ.filter fun j => b.ixl j = 1).card :=
      Finset.card_pos.2 ⟨p.idx r i, Finset.mem_filter.2 ⟨Finset.mem_univ _, (Finset.mem_filter.1 hi).2⟩⟩
    exact_mod_cast this
  have posu : ∀ r, 0 < (cnr r).nUpp → cn.nUpp > 0 := by
    intro r h
    rw [(hcr r).upp] at h
    have h : 0 < (Finset.univ.filter fun i => (scatterBounds p b r).ixu i = 1).card := by exact_mod_cast h
    obtain ⟨i, hi⟩ := Finset.card_pos.1 h
    rw [hc.upp]
    have : 0 < (Finset.univ.filter fun j => b.ixu j = 1).card :=
      Finset.card_pos.2 ⟨p.idx r i, Finset.mem_filter.2 ⟨Finset.mem_univ _, (Finset.mem_filter.1 hi).2⟩⟩
    exact_mod_cast this
  obtain ⟨o1, o2, g, h1, h2, hg, ho⟩ := hout
  have e1 := (C34_onenorm (p := p) (Resid.rxPlain it e) o1).1 h1 r
  have e2 := (C34_onenorm (p := p) (negate (Barrier.addNonLogBarTermsToGradX b e.mu e.kappad 1
    (Resid.rxPlain it e))) o2).1 (by
      have : (fun r => (Resid.update dblMax (scatterBounds p b r) (cnr r) (scatterIt p it r)
          (scatterEval p e r) (oldr r)).v.rx) = scatter p (negate (Barrier.addNonLogBarTermsToGradX b
          e.mu e.kappad 1 (Resid.rxPlain it e))) := funext fun r => rx_scatter p b it e r
      rw [← this]; exact h2) r
  -- the six reductions
  have red : ∀ (i : Fin 6) (v : Fin P → ℝ) (c : ℝ), IsSup v c →
      (∀ r, (![(Resid.update dblMax (scatterBounds p b r) (cnr r) (scatterIt p it r) (scatterEval p e r) (oldr r)).nr.nlpOptim,
        (Resid.update dblMax (scatterBounds p b r) (cnr r) (scatterIt p it r) (scatterEval p e r) (oldr r)).nr.nlpFeas,
        (Resid.update dblMax (scatterBounds p b r) (cnr r) (scatterIt p it r) (scatterEval p e r) (oldr r)).nr.nlpCompl,
        (Resid.update dblMax (scatterBounds p b r) (cnr r) (scatterIt p it r) (scatterEval p e r) (oldr r)).nr.barOptim,
        (Resid.update dblMax (scatterBounds p b r) (cnr r) (scatterIt p it r) (scatterEval p e r) (oldr r)).nr.barFeas,
        (Resid.update dblMax (scatterBounds p b r) (cnr r) (scatterIt p it r) (scatterEval p e r) (oldr r)).nr.barCompl] : Fin 6 → ℝ) i = v r) →
      g r i = c := by
    intro i v c hs hv
    have := red_map (op' := max) (fun a : Fin 6 → ℝ => a i) (fun _ _ => rfl) (hg r)
    simp only [hv] at this
    obtain ⟨m1, s, -, m2⟩ := red_max this
    obtain ⟨t, ht⟩ := hs.2 r
    exact le_antisymm (m2 ▸ hs.1 s) (ht.trans (m1 t (List.mem_finRange t)))
  have g0 : g r 0 = (Resid.update dblMax b cn it e old).nr.nlpOptim :=
    red 0 _ _ (((IsSup.const 0).max (isSup_infnorm p (Resid.rxPlain it e))).max
      (IsSup.const (infnorm (Resid.rdPlain it)))) fun r => rfl
  have g1 : g r 1 = (Resid.update dblMax b cn it e old).nr.nlpFeas :=
    red 1 _ _ (IsSup.const _) fun r => rfl
  have g4 : g r 4 = (Resid.update dblMax b cn it e old).nr.barFeas :=
    red 4 _ _ (IsSup.const _) fun r => rfl
  have g3 : g r 3 = (Resid.update dblMax b cn it e old).nr.barOptim := by
    refine red 3 _ _ (((IsSup.const 0).max (isSup_infnorm p (negate (Barrier.addNonLogBarTermsToGradX b
      e.mu e.kappad 1 (Resid.rxPlain it e))))).max (IsSup.const _)) fun r => ?_
    change max (max 0 (infnorm (negate _))) _ = _
    rw [rx_scatter]
    rfl
  have hcompl : ∀ {n : ℕ} (b : Bounds ℝ n m) (cn : Counts) (hc : TrueCounts b cn)
      (vl vu wl' wu' : RVec ℝ n) (wl wu : RVec ℝ m)
      (hl : cn.nLow > 0 → wl' = vl) (hu : cn.nUpp > 0 → wu' = vu)
      (hl0 : ∀ i, b.ixl i = 0 → vl i = 0) (hu0 : ∀ i, b.ixu i = 0 → vu i = 0),
      Resid.bump cn.mUpp (Resid.bump cn.mLow (Resid.bump cn.nUpp (Resid.bump cn.nLow 0 wl') wu') wl) wu
        = complNorm cn vl vu wl wu := by
    intro n b cn hc vl vu wl' wu' wl wu hl hu hl0 hu0
    unfold complNorm
    rw [bump_eq hc.low hc.ixl le_rfl vl wl' hl hl0,
      bump_eq hc.upp hc.ixu (le_max_left _ _) vu wu' hu hu0]
  have supc : ∀ (vl vu : RVec ℝ N) (wl wu : RVec ℝ m),
      IsSup (fun r => complNorm (cnr r) (scatter p vl r) (scatter p vu r) wl wu)
        (complNorm cn vl vu wl wu) := by
    intro vl vu wl wu
    unfold complNorm
    simp only [hml, hmu]
    have base := ((IsSup.const (P := P) (0 : ℝ)).max (isSup_infnorm p vl)).max (isSup_infnorm p vu)
    unfold Resid.bump
    split_ifs
    · exact (base.max (IsSup.const _)).max (IsSup.const _)
    · exact base.max (IsSup.const _)
    · exact base.max (IsSup.const _)
    · exact base
  have sel0 : ∀ {n : ℕ} (v sel : RVec ℝ n) (i : Fin n), sel i = 0 → Vec.selectPattern v sel i = 0 := by
    intro n v sel i h; simp [Vec.selectPattern, h]
  have g2 : g r 2 = (Resid.update dblMax b cn it e old).nr.nlpCompl := by
    have hs : (Resid.update dblMax b cn it e old).nr.nlpCompl
        = complNorm cn (Vec.selectPattern (axzpy (zeroVec N) (-1) it.sxl it.zl) b.ixl)
          (Vec.selectPattern (axzpy (zeroVec N) (-1) it.sxu it.zu) b.ixu)
          (Resid.compRes0 cn.mLow b.idl it.sdl it.vl) (Resid.compRes0 cn.mUpp b.idu it.sdu it.vu) :=
      hcompl b cn hc _ _ _ _ _ _ (fun _ => compRes0_eq hc.low _ _) (fun _ => compRes0_eq hc.upp _ _)
        (fun i => sel0 _ _ i) (fun i => sel0 _ _ i)
    rw [hs]
    refine red 2 _ _ (supc _ _ _ _) fun r => ?_
    rw [← scatter_comp0, ← scatter_comp0]
    have := hcompl (scatterBounds p b r) (cnr r) (hcr r) _ _ _ _
      (Resid.compRes0 (cnr r).mLow b.idl it.sdl it.vl) (Resid.compRes0 (cnr r).mUpp b.idu it.sdu it.vu)
      (fun _ => compRes0_eq (hcr r).low (scatter p it.sxl r) (scatter p it.zl r))
      (fun _ => compRes0_eq (hcr r).upp (scatter p it.sxu r) (scatter p it.zu r))
      (fun i => sel0 _ _ i) (fun i => sel0 _ _ i)
    refine Eq.trans this ?_
    simp only [complNorm, hml, hmu]
    rfl
  have g5 : g r 5 = (Resid.update dblMax b cn it e old).nr.barCompl := by
    have hs : (Resid.update dblMax b cn it e old).nr.barCompl
        = complNorm cn (comp b.ixl it.sxl it.zl e.mu) (comp b.ixu it.sxu it.zu e.mu)
          (Resid.compRes cn.mLow b.idl old.v.rsvl it.sdl it.vl e.mu)
          (Resid.compRes cn.mUpp b.idu old.v.rsvu it.sdu it.vu e.mu) :=
      hcompl b cn hc _ _ _ _ _ _ (fun h => compRes_eq hc.low _ _ _ _ h)
        (fun h => compRes_eq hc.upp _ _ _ _ h)
        (fun i => comp_zero _ _ _ _ i) (fun i => comp_zero _ _ _ _ i)
    rw [hs]
    refine red 5 _ _ (supc _ _ _ _) fun r => ?_
    rw [← scatter_comp, ← scatter_comp]
    have := hcompl (scatterBounds p b r) (cnr r) (hcr r) _ _ _ _
      (Resid.compRes (cnr r).mLow b.idl (oldr r).v.rsvl it.sdl it.vl e.mu)
      (Resid.compRes (cnr r).mUpp b.idu (oldr r).v.rsvu it.sdu it.vu e.mu)
      (fun h => compRes_eq (hcr r).low (oldr r).v.rszl (scatter p it.sxl r) (scatter p it.zl r) e.mu h)
      (fun h => compRes_eq (hcr r).upp (oldr r).v.rszu (scatter p it.sxu r) (scatter p it.zu r) e.mu h)
      (fun i => comp_zero _ _ _ _ i) (fun i => comp_zero _ _ _ _ i)
    refine Eq.trans this ?_
    simp only [complNorm, hml, hmu]
    have a1 : ∀ (acc : ℝ) (o : RVec ℝ m), Resid.bump cn.mLow acc (Resid.compRes cn.mLow b.idl o it.sdl it.vl e.mu)
        = Resid.bump cn.mLow acc (Resid.compRes cn.mLow b.idl old.v.rsvl it.sdl it.vl e.mu) := by
      intro acc o
      unfold Resid.bump Resid.compRes
      split <;> rfl
    have a2 : ∀ (acc : ℝ) (o : RVec ℝ m), Resid.bump cn.mUpp acc (Resid.compRes cn.mUpp b.idu o it.sdu it.vu e.mu)
        = Resid.bump cn.mUpp acc (Resid.compRes cn.mUpp b.idu old.v.rsvu it.sdu it.vu e.mu) := by
      intro acc o
      unfold Resid.bump Resid.compRes
      split <;> rfl
    rw [a1, a2]
    rfl
  rw [ho r]
  refine ⟨?_, ?_⟩
  · simp only [g0, g1, g2, g3, g4, g5, e1, e2]
    rfl
  · refine ⟨rx_scatter p b it e r, ?_, rfl, rfl, fun h => ⟨?_, ?_⟩, fun h => ⟨?_, ?_⟩, fun h => ⟨?_, ?_⟩,
      fun h => ⟨?_, ?_⟩⟩
    · rfl
    · change Resid.slackRes _ _ _ _ _ _ _ = scatter p (Resid.slackRes _ _ _ _ _ _ _) r
      rw [slackRes_eq (hcr r).low _ _ _ _ h, slackRes_eq hc.low _ _ _ _ (posl r h)]; rfl
    · change Resid.compRes _ _ _ _ _ _ = scatter p (Resid.compRes _ _ _ _ _ _) r
      rw [compRes_eq (hcr r).low _ _ _ _ h, compRes_eq hc.low _ _ _ _ (posl r h)]
      exact scatter_comp p _ _ _ _ r
    · change Resid.slackRes _ _ _ _ _ _ _ = scatter p (Resid.slackRes _ _ _ _ _ _ _) r
      rw [slackRes_eq (hcr r).upp _ _ _ _ h, slackRes_eq hc.upp _ _ _ _ (posu r h)]; rfl
    · change Resid.compRes _ _ _ _ _ _ = scatter p (Resid.compRes _ _ _ _ _ _) r
      rw [compRes_eq (hcr r).upp _ _ _ _ h, compRes_eq hc.upp _ _ _ _ (posu r h)]
      exact scatter_comp p _ _ _ _ r
    · change Resid.slackRes (cnr r).mLow _ _ _ _ _ _ = Resid.slackRes cn.mLow _ _ _ _ _ _
      unfold Resid.slackRes
      rw [hml, if_pos h, if_pos h]; rfl
    · change Resid.compRes (cnr r).mLow _ _ _ _ _ = Resid.compRes cn.mLow _ _ _ _ _
      unfold Resid.compRes
      rw [hml, if_pos h, if_pos h]; rfl
    · change Resid.slackRes (cnr r).mUpp _ _ _ _ _ _ = Resid.slackRes cn.mUpp _ _ _ _ _ _
      unfold Resid.slackRes
      rw [hmu, if_pos h, if_pos h]; rfl
    · change Resid.compRes (cnr r).mUpp _ _ _ _ _ = Resid.compRes cn.mUpp _ _ _ _ _
      unfold Resid.compRes
      rw [hmu, if_pos h, if_pos h]; rfl

/-- **C34.** The distributed residual update has an outcome. -/
theorem C34_residual_total (dblMax : ℝ) (b : ∀ r : Fin P, Bounds ℝ (p.len r) m)
    (cn : Fin P → Counts) (it : ∀ r : Fin P, It ℝ (p.len r) mc m)
    (e : ∀ r : Fin P, Resid.Eval (p.len r) mc m) (old : ∀ r : Fin P, Resid.RState (p.len r) mc m) :
    ∃ out, updateD dblMax b cn it e old out := by
  have ex : ∀ {A : Type} (op : A → A → A) (v : Fin P → A), ∃ g : Fin P → A, Allreduce op v g := by
    intro A op v
    have : ∀ r : Fin P, ∃ y, Red op v (List.finRange P) y := by
      intro r
      apply red_exists
      intro h
      have := List.mem_finRange r
      rw [h] at this
      simp at this
    choose g hg using this
    exact ⟨g, hg⟩
  obtain ⟨o1, h1⟩ := ex (· + ·) (fun r => onenorm (Resid.rxPlain (it r) (e r)))
  obtain ⟨o2, h2⟩ := ex (· + ·)
    (fun r => onenorm (Resid.update dblMax (b r) (cn r) (it r) (e r) (old r)).v.rx)
  obtain ⟨g, h3⟩ := ex (fun a c i => max (a i) (c i)) (fun r =>
    (![(Resid.update dblMax (b r) (cn r) (it r) (e r) (old r)).nr.nlpOptim,
      (Resid.update dblMax (b r) (cn r) (it r) (e r) (old r)).nr.nlpFeas,
      (Resid.update dblMax (b r) (cn r) (it r) (e r) (old r)).nr.nlpCompl,
      (Resid.update dblMax (b r) (cn r) (it r) (e r) (old r)).nr.barOptim,
      (Resid.update dblMax (b r) (cn r) (it r) (e r) (old r)).nr.barFeas,
      (Resid.update dblMax (b r) (cn r) (it r) (e r) (old r)).nr.barCompl] : Fin 6 → ℝ))
  exact ⟨_, o1, o2, g, h1, h2, h3, fun r => rfl⟩

/-! ## Quasi-Newton matrix -/

theorem getD_scatter (p : Part N P) (L : List (RVec ℝ N)) (r : Fin P) (i : ℕ) :
    (L.map fun s => scatter p s r).getD i 0 = scatter p (L.getD i 0) r := by
  rw [List.getD_eq_getElem?_getD, List.getElem?_map, List.getD_eq_getElem?_getD]
  cases L[i]? <;> rfl

theorem sum_wdot (p : Part N P) (a d b : RVec ℝ N) :
    ∑ r, QN.wdot (scatter p a r) (scatter p d r) (scatter p b r) = QN.wdot a d b := by
  rw [QN.wdot_eq, ← sum_scatter p]
  exact Finset.sum_congr rfl fun r _ => QN.wdot_eq _ _ _

theorem sum_dot (p : Part N P) (a b : RVec ℝ N) :
    ∑ r, dot (scatter p a r) (scatter p b r) = dot a b := by
  rw [dot_eq_sum, ← sum_scatter p]
  exact Finset.sum_congr rfl fun r _ => dot_eq_sum _ _

theorem sum_matDiag (p : Part N P) (S : ℕ → RVec ℝ N) (d : RVec ℝ N) (X : ℕ → RVec ℝ N) :
    ∑ r, QN.matDiag (fun i => scatter p (S i) r) (scatter p d r) (fun i => scatter p (X i) r)
      = QN.matDiag S d X := by
  funext i j
  rw [Finset.sum_apply, Finset.sum_apply]
  exact sum_wdot p _ _ _

theorem sum_symMatDiag0 (p : Part N P) (alpha : ℝ) (W : Fin P → NMat ℝ) (X : ℕ → RVec ℝ N)
    (d : RVec ℝ N) :
    ∑ r, QN.symMatDiag 0 (W r) alpha (fun i => scatter p (X i) r) (scatter p d r)
      = QN.symMatDiag 0 (fun _ _ => 0) alpha X d := by
  funext i j
  rw [Finset.sum_apply, Finset.sum_apply]
  simp only [QN.symMatDiag, zero_mul, zero_add]
  rw [← Finset.mul_sum, sum_wdot]

theorem scatter_scale (p : Part N P) (x : RVec ℝ N) (c : ℝ) (r : Fin P) :
    scale (scatter p x r) c = scatter p (scale x c) r := by
  unfold scale; split_ifs <;> rfl

theorem rep_eq {n : ℕ} (q : QN.St n mc m) : QN.rep q = qnAssemble q (qnBlocks q) := rfl

theorem sum_qnBlocks (prev : ∀ r : Fin P, QN.Pt (p.len r) mc m) (q : QN.St N mc m) :
    ∑ r, qnBlocks (scatterQN p prev q r) = qnBlocks q := by
  have a1 : ∀ r, (fun i => (scatterQN p prev q r).Y.getD i 0) = fun i => scatter p (q.Y.getD i 0) r :=
    fun r => funext fun i => getD_scatter p q.Y r i
  have a2 : ∀ r, (fun i => (scatterQN p prev q r).S.getD i 0) = fun i => scatter p (q.S.getD i 0) r :=
    fun r => funext fun i => getD_scatter p q.S r i
  have a3 : ∀ r, scale (scatterQN p prev q r).dhInv (scatterQN p prev q r).sigma
      = scatter p (scale q.dhInv q.sigma) r := fun r => scatter_scale p q.dhInv q.sigma r
  have a4 : ∀ r, scale (addConstant (scatter p (scale q.dhInv q.sigma) r) (-1))
      (scatterQN p prev q r).sigma
      = scatter p (scale (addConstant (scale q.dhInv q.sigma) (-1)) q.sigma) r :=
    fun r => scatter_scale p (addConstant (scale q.dhInv q.sigma) (-1)) q.sigma r
  refine Prod.ext ?_ (Prod.ext ?_ ?_)
  · rw [Prod.fst_sum]
    rw [show (qnBlocks q).1 = QN.symMatDiag 0 (fun _ _ => 0) 1 (fun i => q.Y.getD i 0) q.dhInv from rfl,
      ← sum_symMatDiag0 p 1 (fun _ _ _ => 0)]
    refine Finset.sum_congr rfl fun r _ => ?_
    unfold qnBlocks
    simp only [a1]; rfl
  · rw [Prod.snd_sum, Prod.fst_sum]
    rw [show (qnBlocks q).2.1 = QN.matDiag (fun i => q.S.getD i 0) (scale q.dhInv q.sigma)
      (fun i => q.Y.getD i 0) from rfl, ← sum_matDiag p]
    refine Finset.sum_congr rfl fun r _ => ?_
    unfold qnBlocks
    simp only [a1, a2, a3]
  · rw [Prod.snd_sum, Prod.snd_sum]
    rw [show (qnBlocks q).2.2 = QN.symMatDiag 0 (fun _ _ => 0) 1 (fun i => q.S.getD i 0)
      (scale (addConstant (scale q.dhInv q.sigma) (-1)) q.sigma) from rfl,
      ← sum_symMatDiag0 p 1 (fun _ _ _ => 0)]
    refine Finset.sum_congr rfl fun r _ => ?_
    unfold qnBlocks
    simp only [a2, a3, a4]

theorem assemble_scatter (prev : ∀ r : Fin P, QN.Pt (p.len r) mc m) (q : QN.St N mc m)
    (g : NMat ℝ × NMat ℝ × NMat ℝ) (r : Fin P) :
    qnAssemble (scatterQN p prev q r) g = (qnAssemble q g).map fun q' => scatterQN p prev q' r := by
  have hl : (scatterQN p prev q r).S.length = q.S.length := List.length_map _
  unfold qnAssemble
  simp only [hl]
  by_cases h : q.lDim = q.S.length ∧ q.D.length = q.S.length
  · have h' : (scatterQN p prev q r).lDim = q.S.length
      ∧ (scatterQN p prev q r).D.length = q.S.length := h
    rw [if_pos h, if_pos h']
    rfl
  · have h' : ¬ ((scatterQN p prev q r).lDim = q.S.length
      ∧ (scatterQN p prev q r).D.length = q.S.length) := h
    rw [if_neg h, if_neg h']
    rfl

/-- **C34.** The matrix of the compact representation every rank forms is the serial one. -/
theorem C34_qn_matrix (prev : ∀ r : Fin P, QN.Pt (p.len r) mc m) (q : QN.St N mc m)
    (out : ∀ r : Fin P, Option (QN.St (p.len r) mc m)) :
    repD (scatterQN p prev q) out ↔
      ∀ r, out r = (QN.rep q).map fun q' => scatterQN p prev q' r := by
  have hred : ∀ g, Allreduce (· + ·) (fun r => qnBlocks (scatterQN p prev q r)) g ↔
      ∀ r, g r = qnBlocks q := fun g => by
    rw [allreduce_sum, sum_qnBlocks]
  constructor
  · rintro ⟨g, hg, ho⟩ r
    rw [ho r, (hred g).1 hg r, rep_eq]
    exact assemble_scatter prev q _ r
  · intro h
    exact ⟨fun _ => _, (hred _).2 fun _ => rfl, fun r => by
      rw [h r, rep_eq]; exact (assemble_scatter prev q _ r).symm⟩

theorem refreshD_iff (hP : 0 < P) (prev : ∀ r : Fin P, QN.Pt (p.len r) mc m) (q : QN.St N mc m)
    (out : ∀ r : Fin P, Option (QN.St (p.len r) mc m)) :
    refreshD (scatterQN p prev q) out ↔
      ∀ r, out r = (QN.refresh q).map fun q' => scatterQN p prev q' r := by
  have hc : ∀ r, (scatterQN p prev q r).changed = q.changed := fun _ => rfl
  unfold refreshD QN.refresh
  simp only [hc]
  have all : ∀ b : Prop, (∀ _ : Fin P, b) ↔ b := fun b => ⟨fun h => h ⟨0, hP⟩, fun h _ => h⟩
  simp only [all, C34_qn_matrix]
  cases h : q.changed <;> simp

/-- **C34.** The solve with the quasi-Newton matrix: every rank obtains its piece of the serial
solution, or every rank the failure of the serial solve. -/
theorem C34_qn_solve (hP : 0 < P) (la : QN.Lapack) (prev : ∀ r : Fin P, QN.Pt (p.len r) mc m)
    (q : QN.St N mc m) (rhs : RVec ℝ N)
    (out : ∀ r : Fin P, Option (QN.St (p.len r) mc m × RVec ℝ (p.len r))) :
    solveD la (scatterQN p prev q) (scatter p rhs) out ↔
      ∀ r, out r = (QN.solve la q rhs).map fun s => (scatterQN p prev s.1 r, scatter p s.2 r) := by
  unfold solveD QN.solve
  simp only [refreshD_iff hP]
  cases hq : QN.refresh q with
  | none =>
    simp only [Option.map_none, Option.bind_eq_bind, Option.bind_none]
    constructor
    · rintro ⟨q', h, (⟨-, ho⟩ | ⟨q1, h1, -⟩)⟩ r
      · exact ho r
      · have := h1 r; rw [h r] at this; exact absurd this (by simp)
    · intro ho
      exact ⟨fun _ => none, fun _ => rfl, Or.inl ⟨⟨⟨0, hP⟩, rfl⟩, ho⟩⟩
  | some q1 =>
    simp only [Option.map_some, Option.bind_eq_bind, Option.bind_some]
    let x := componentMult rhs q1.dhInv
    have hy : ∀ g : Fin P → ℕ → ℝ, Allreduce (· + ·)
        (fun r a => dot ((scatterQN p prev q1 r).Y.getD a 0) (scatter p x r)) g ↔
        ∀ r, g r = fun a => dot (q1.Y.getD a 0) x := by
      intro g
      rw [allreduce_sum]
      have : (∑ r, fun a => dot ((scatterQN p prev q1 r).Y.getD a 0) (scatter p x r))
          = fun a => dot (q1.Y.getD a 0) x := by
        funext a
        rw [Finset.sum_apply, ← sum_dot p]
        refine Finset.sum_congr rfl fun r _ => ?_
        rw [← getD_scatter]; rfl
      rw [this]
    have hs : ∀ g : Fin P → ℕ → ℝ, Allreduce (· + ·)
        (fun r a => dot ((scatterQN p prev q1 r).S.getD a 0)
          (scale (scatter p x r) (scatterQN p prev q1 r).sigma)) g ↔
        ∀ r, g r = fun a => dot (q1.S.getD a 0) (scale x q1.sigma) := by
      intro g
      rw [allreduce_sum]
      have : (∑ r, fun a => dot ((scatterQN p prev q1 r).S.getD a 0)
          (scale (scatter p x r) (scatterQN p prev q1 r).sigma))
          = fun a => dot (q1.S.getD a 0) (scale x q1.sigma) := by
        funext a
        rw [Finset.sum_apply, ← sum_dot p]
        refine Finset.sum_congr rfl fun r _ => ?_
        rw [← getD_scatter, ← scatter_scale]; rfl
      rw [this]
    have hrows : ∀ (r : Fin P) (L : List (RVec ℝ N)) (beta : ℝ) (y : RVec ℝ N) (z : ℕ → ℝ),
        QN.rowsTransTimes (L.map fun s => scatter p s r) beta (scatter p y r) z
          = scatter p (QN.rowsTransTimes L beta y z) r := by
      intro r L beta y z
      funext i
      unfold QN.rowsTransTimes scatter
      rw [List.length_map]
      congr 1
      refine Finset.sum_congr rfl fun a _ => ?_
      have := congrFun (getD_scatter p L r a) i
      unfold scatter at this
      rw [this]
    have fin : ∀ r : Fin P, ((QN.solveWithV la (scatterQN p prev q1 r) (scatterQN p prev q1 r).S.length
          (fun a => dot (q1.S.getD a 0) (scale x q1.sigma)) (fun a => dot (q1.Y.getD a 0) x)).bind
        fun z => some (scatterQN p prev q1 r, axpy (scatter p x r) (-1)
          (componentMult (QN.rowsTransTimes (scatterQN p prev q1 r).Y 1
            (scale (QN.rowsTransTimes (scatterQN p prev q1 r).S 0 (fun _ => 0) z.1)
              (scatterQN p prev q1 r).sigma) z.2) (scatterQN p prev q1 r).dhInv)))
        = ((QN.solveWithV la q1 q1.S.length (fun a => dot (q1.S.getD a 0) (scale x q1.sigma))
            (fun a => dot (q1.Y.getD a 0) x)).bind fun z => some (q1, axpy x (-1)
          (componentMult (QN.rowsTransTimes q1.Y 1
            (scale (QN.rowsTransTimes q1.S 0 (fun _ => 0) z.1) q1.sigma) z.2) q1.dhInv))).map
          fun s => (scatterQN p prev s.1 r, scatter p s.2 r) := by
      intro r
      have hl : (scatterQN p prev q1 r).S.length = q1.S.length := List.length_map _
      have hv : QN.solveWithV la (scatterQN p prev q1 r) q1.S.length
          (fun a => dot (q1.S.getD a 0) (scale x q1.sigma)) (fun a => dot (q1.Y.getD a 0) x)
          = QN.solveWithV la q1 q1.S.length
            (fun a => dot (q1.S.getD a 0) (scale x q1.sigma)) (fun a => dot (q1.Y.getD a 0) x) := rfl
      rw [hl, hv]
      cases QN.solveWithV la q1 q1.S.length (fun a => dot (q1.S.getD a 0) (scale x q1.sigma))
        (fun a => dot (q1.Y.getD a 0) x) with
      | none => rfl
      | some z =>
        simp only [Option.bind_some, Option.map_some, Option.some.injEq, Prod.mk.injEq, true_and]
        have h1 : QN.rowsTransTimes (scatterQN p prev q1 r).S 0 (fun _ => 0) z.1
            = scatter p (QN.rowsTransTimes q1.S 0 (fun _ => 0) z.1) r :=
          hrows r q1.S 0 (fun _ => 0) z.1
        have h2 : scale (scatter p (QN.rowsTransTimes q1.S 0 (fun _ => 0) z.1) r)
            (scatterQN p prev q1 r).sigma
            = scatter p (scale (QN.rowsTransTimes q1.S 0 (fun _ => 0) z.1) q1.sigma) r :=
          scatter_scale p _ _ r
        have h3 := hrows r q1.Y 1 (scale (QN.rowsTransTimes q1.S 0 (fun _ => 0) z.1) q1.sigma) z.2
        rw [h1, h2]
        change axpy _ _ (componentMult (QN.rowsTransTimes (q1.Y.map fun s => scatter p s r) 1 _ z.2) _)
          = _
        rw [h3]
        rfl
    constructor
    · rintro ⟨q', h, (⟨⟨r0, h0⟩, -⟩ | ⟨q2, h2, x', hx', ytx, stx, hyt, hst, ho⟩)⟩ r
      · rw [h r0] at h0; exact absurd h0 (by simp)
      · have hq2 : q2 = fun r => scatterQN p prev q1 r := by
          funext r
          have := h2 r
          rw [h r] at this
          exact (Option.some.inj this).symm
        subst hq2
        have hxx : x' = scatter p x := funext fun r => hx' r
        subst hxx
        rw [ho r, (hy ytx).1 hyt r, (hs stx).1 hst r]
        exact fin r
    · intro ho
      refine ⟨fun r => some (scatterQN p prev q1 r), fun _ => rfl, Or.inr ⟨fun r => scatterQN p prev q1 r,
        fun _ => rfl, scatter p x, fun _ => rfl, fun _ => _, fun _ => _, (hy _).2 fun _ => rfl,
        (hs _).2 fun _ => rfl, fun r => ?_⟩⟩
      rw [ho r]
      exact (fin r).symm

theorem sum_symMatDiag (hP : 0 < P) (p : Part N P) (beta alpha : ℝ) (W : Fin P → NMat ℝ)
    (X : ℕ → RVec ℝ N) (d : RVec ℝ N) :
    (∑ r : Fin P, if r.val = 0 then QN.symMatDiag beta (W r) alpha (fun i => scatter p (X i) r) (scatter p d r)
      else QN.symMatDiag 0 (W r) alpha (fun i => scatter p (X i) r) (scatter p d r))
      = QN.symMatDiag beta (W ⟨0, hP⟩) alpha X d := by
  funext i j
  rw [Finset.sum_apply, Finset.sum_apply]
  have e : ∀ r : Fin P, (if r.val = 0 then QN.symMatDiag beta (W r) alpha (fun i => scatter p (X i) r) (scatter p d r)
      else QN.symMatDiag 0 (W r) alpha (fun i => scatter p (X i) r) (scatter p d r)) i j
      = (if r.val = 0 then beta * W r (min i j) (max i j) else 0)
        + alpha * QN.wdot (scatter p (X (min i j)) r) (scatter p d r) (scatter p (X (max i j)) r) := by
    intro r
    split <;> simp [QN.symMatDiag]
  simp only [e]
  rw [Finset.sum_add_distrib, ← Finset.mul_sum, sum_wdot, sum_rank_zero hP]
  · simp [QN.symMatDiag]
  · intro r hr; simp [hr]

/-- **C34.** The product `beta*W + alpha*X*B^{-1}*X'` used for the reduced linear system: every rank
obtains the serial matrix for the `W` held by rank 0, or every rank the failure of the serial
computation. -/
theorem C34_qn_product (hP : 0 < P) (la : QN.Lapack) (prev : ∀ r : Fin P, QN.Pt (p.len r) mc m)
    (q : QN.St N mc m) (k : ℕ) (beta : ℝ) (W : Fin P → NMat ℝ) (alpha : ℝ) (X : ℕ → RVec ℝ N)
    (out : ∀ r : Fin P, Option (QN.St (p.len r) mc m × NMat ℝ)) :
    symMatTimesInverseD la (scatterQN p prev q) k beta W alpha (fun r i => scatter p (X i) r) out ↔
      ∀ r, out r = (QN.symMatTimesInverse la q k beta (W ⟨0, hP⟩) alpha X).map
        fun s => (scatterQN p prev s.1 r, s.2) := by
  unfold symMatTimesInverseD QN.symMatTimesInverse
  simp only [refreshD_iff hP]
  cases hq : QN.refresh q with
  | none =>
    simp only [Option.map_none, Option.bind_eq_bind, Option.bind_none]
    constructor
    · rintro ⟨q', h, (⟨-, ho⟩ | ⟨q1, h1, -⟩)⟩ r
      · exact ho r
      · have := h1 r; rw [h r] at this; exact absurd this (by simp)
    · intro ho
      exact ⟨fun _ => none, fun _ => rfl, Or.inl ⟨⟨⟨0, hP⟩, rfl⟩, ho⟩⟩
  | some q1 =>
    simp only [Option.map_some, Option.bind_eq_bind, Option.bind_some]
    have a1 : ∀ r, (fun i => (scatterQN p prev q1 r).Y.getD i 0) = fun i => scatter p (q1.Y.getD i 0) r :=
      fun r => funext fun i => getD_scatter p q1.Y r i
    have a2 : ∀ r, (fun i => (scatterQN p prev q1 r).S.getD i 0) = fun i => scatter p (q1.S.getD i 0) r :=
      fun r => funext fun i => getD_scatter p q1.S r i
    have a3 : ∀ r, scale (scatterQN p prev q1 r).dhInv (scatterQN p prev q1 r).sigma
        = scatter p (scale q1.dhInv q1.sigma) r := fun r => scatter_scale p q1.dhInv q1.sigma r
    have hsy : ∀ g : Fin P → NMat ℝ × NMat ℝ, Allreduce (· + ·) (fun r =>
        (QN.matDiag (fun i => scatter p (X i) r)
          (scale (scatterQN p prev q1 r).dhInv (scatterQN p prev q1 r).sigma)
          (fun j => (scatterQN p prev q1 r).S.getD j 0),
         QN.matDiag (fun i => scatter p (X i) r) (scatterQN p prev q1 r).dhInv
          (fun j => (scatterQN p prev q1 r).Y.getD j 0))) g ↔
        ∀ r, g r = (QN.matDiag X (scale q1.dhInv q1.sigma) (fun j => q1.S.getD j 0),
          QN.matDiag X q1.dhInv (fun j => q1.Y.getD j 0)) := by
      intro g
      rw [allreduce_sum]
      simp only [a1, a2, a3]
      have : (∑ r, (QN.matDiag (fun i => scatter p (X i) r) (scatter p (scale q1.dhInv q1.sigma) r)
          (fun j => scatter p (q1.S.getD j 0) r),
         QN.matDiag (fun i => scatter p (X i) r) (scatterQN p prev q1 r).dhInv
          (fun j => scatter p (q1.Y.getD j 0) r)))
          = (QN.matDiag X (scale q1.dhInv q1.sigma) (fun j => q1.S.getD j 0),
          QN.matDiag X q1.dhInv (fun j => q1.Y.getD j 0)) := by
        refine Prod.ext ?_ ?_
        · rw [Prod.fst_sum]; exact sum_matDiag p _ _ _
        · rw [Prod.snd_sum]; exact sum_matDiag p _ _ _
      rw [this]
    have hw : ∀ g : Fin P → NMat ℝ, Allreduce (· + ·) (fun r : Fin P =>
        if r.val = 0 then QN.symMatDiag beta (W r) alpha (fun i => scatter p (X i) r)
          (scatterQN p prev q1 r).dhInv
        else QN.symMatDiag 0 (W r) alpha (fun i => scatter p (X i) r) (scatterQN p prev q1 r).dhInv) g ↔
        ∀ r, g r = QN.symMatDiag beta (W ⟨0, hP⟩) alpha X q1.dhInv := by
      intro g
      rw [allreduce_sum]
      exact iff_of_eq (by rw [← sum_symMatDiag hP p beta alpha W X q1.dhInv]; rfl)
    have fin : ∀ (r : Fin P) (w S1 Y1 : NMat ℝ),
        (((List.range k).mapM fun i => QN.solveWithV la (scatterQN p prev q1 r)
            (scatterQN p prev q1 r).S.length (S1 i) (Y1 i)).bind fun rows =>
          some (scatterQN p prev q1 r, (fun i j => (w i j + (0 - alpha)
              * ∑ a ∈ Finset.range (scatterQN p prev q1 r).S.length, S1 i a * (rows.getD j (0, 0)).1 a)
            + (0 - alpha) * ∑ a ∈ Finset.range (scatterQN p prev q1 r).S.length,
                Y1 i a * (rows.getD j (0, 0)).2 a : NMat ℝ)))
        = ((((List.range k).mapM fun i => QN.solveWithV la q1 q1.S.length (S1 i) (Y1 i)).bind fun rows =>
          some (q1, (fun i j => (w i j + (0 - alpha)
              * ∑ a ∈ Finset.range q1.S.length, S1 i a * (rows.getD j (0, 0)).1 a)
            + (0 - alpha) * ∑ a ∈ Finset.range q1.S.length,
                Y1 i a * (rows.getD j (0, 0)).2 a : NMat ℝ)))).map
          fun s => (scatterQN p prev s.1 r, s.2) := by
      intro r w S1 Y1
      have hl : (scatterQN p prev q1 r).S.length = q1.S.length := List.length_map _
      have hv : (fun i => QN.solveWithV la (scatterQN p prev q1 r) q1.S.length (S1 i) (Y1 i))
          = fun i => QN.solveWithV la q1 q1.S.length (S1 i) (Y1 i) := rfl
      rw [hl, hv]
      cases (List.range k).mapM fun i => QN.solveWithV la q1 q1.S.length (S1 i) (Y1 i) with
      | none => rfl
      | some rows => rfl
    constructor
    · rintro ⟨q', h, (⟨⟨r0, h0⟩, -⟩ | ⟨q2, h2, sy, w, hs, hww, ho⟩)⟩ r
      · rw [h r0] at h0; exact absurd h0 (by simp)
      · have hq2 : q2 = fun r => scatterQN p prev q1 r := by
          funext r
          have := h2 r
          rw [h r] at this
          exact (Option.some.inj this).symm
        subst hq2
        rw [ho r, (hsy sy).1 hs r, (hw w).1 hww r]
        exact fin r _ _ _
    · intro ho
      refine ⟨fun r => some (scatterQN p prev q1 r), fun _ => rfl, Or.inr ⟨fun r => scatterQN p prev q1 r,
        fun _ => rfl, fun _ => _, fun _ => _, (hsy _).2 fun _ => rfl, (hw _).2 fun _ => rfl, fun r => ?_⟩⟩
      rw [ho r]
      exact (fin r _ _ _).symm

/-! ## Instances -/

/-- Three ranks, one of them without variables. -/
def partE : Part 3 3 where
  off := fun r => [0, 2, 2, 3].getD r 3
  zero := rfl
  last := rfl
  mono := by
    apply monotone_nat_of_le_succ
    intro r
    rcases r with _ | _ | _ | _ | r <;> simp

/-- The inner product on those ranks: the only outcome is the serial value 32 on every rank. -/
example : dotD (scatter partE ![(1 : ℚ), 2, 3]) (scatter partE ![4, 5, 6]) fun _ => 32 :=
  (C34_dot _ _ _).2 fun _ => by decide +kernel

/-- The counters that `C34_residual` asks for, for any bounds. -/
noncomputable def countsOf {n : ℕ} (b : Bounds ℝ n m) : Counts where
  nLow := (Finset.univ.filter fun i => b.ixl i = 1).card
  nUpp := (Finset.univ.filter fun i => b.ixu i = 1).card
  mLow := (Finset.univ.filter fun i => b.idl i = 1).card
  mUpp := (Finset.univ.filter fun i => b.idu i = 1).card

/-- A problem with a lower bound on the first two variables and an upper bound on the second. -/
noncomputable def exBounds : Bounds ℝ 3 1 where
  xl := ![0, 0, 0]
  xu := ![1, 1, 1]
  ixl := ![1, 1, 0]
  ixu := ![0, 1, 0]
  dl := ![0]
  du := ![1]
  idl := ![1]
  idu := ![0]

/-- The hypotheses of `C34_residual` hold for it on the three ranks. -/
example : TrueCounts exBounds (countsOf exBounds) ∧
    (∀ r, TrueCounts (scatterBounds partE exBounds r) (countsOf (scatterBounds partE exBounds r))) ∧
    countsOf exBounds = ⟨2, 1, 1, 0⟩ := by
  have h1 : ∀ i, exBounds.ixl i = 0 ∨ exBounds.ixl i = 1 := by
    intro i; fin_cases i <;> simp [exBounds]
  have h2 : ∀ i, exBounds.ixu i = 0 ∨ exBounds.ixu i = 1 := by
    intro i; fin_cases i <;> simp [exBounds]
  refine ⟨⟨rfl, rfl, rfl, rfl, h1, h2⟩, fun r => ⟨rfl, rfl, rfl, rfl, fun i => h1 (partE.idx r i),
    fun i => h2 (partE.idx r i)⟩, ?_⟩
  have c1 : (Finset.univ.filter fun i => exBounds.ixl i = 1) = {0, 1} := by
    ext i; rw [Finset.mem_filter]; fin_cases i <;> simp [exBounds]
  have c2 : (Finset.univ.filter fun i => exBounds.ixu i = 1) = {1} := by
    ext i; rw [Finset.mem_filter]; fin_cases i <;> simp [exBounds]
  have c3 : (Finset.univ.filter fun i => exBounds.idl i = 1) = {0} := by
    ext i; rw [Finset.mem_filter]; fin_cases i; simp [exBounds]
  have c4 : (Finset.univ.filter fun i => exBounds.idu i = 1) = ∅ := by
    ext i; rw [Finset.mem_filter]; fin_cases i; simp [exBounds]
  simp only [countsOf, c1, c2, c3, c4]
  rfl

end Hiop.Mpi
