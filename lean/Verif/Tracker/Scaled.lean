import Verif.Tracker.Simulation

/-! # Trackings on different scales of time

If all times of one tracking are those of another, multiplied by a positive number, and the operations
correspond, then the results correspond.  Used for the similarity of plasma stages (C130). -/

set_option linter.unusedSectionVars false

namespace WakeT.Tracker

variable {K F σ σ' : Type*} [Field K] [LinearOrder K] [IsStrictOrderedRing K] [LinearOrder F]

/-- Specification: the times of the tracking `c'` are those of `c`, multiplied by `l`; `R` is the
relation of the worlds, which has to be respected by all operations. -/
structure Scaled (l : K) (c : Cfg K F σ) (c' : Cfg K F σ') (R : σ → σ' → Prop) : Prop where
  pos : 0 < l
  tFinal : c'.tFinal = l * c.tFinal
  nBunch : c'.nBunch = c.nBunch
  nField : c'.nField = c.nField
  nDiag : c'.nDiag = c.nDiag
  opmd : c'.opmd = c.opmd
  pushBefore : c'.pushBeforeDiags = c.pushBeforeDiags
  f32 : ∀ t, c'.f32 (l * t) = c.f32 t
  dtBunch : ∀ i < c.nBunch, c'.dtBunch i = (c.dtBunch i).map (l * ·)
  dtField : ∀ j < c.nField, c'.dtField j = l * c.dtField j
  autoDt : ∀ i < c.nBunch, ∀ w w', R w w' → c'.autoDt w' i = l * c.autoDt w i
  evolve : ∀ i < c.nBunch, ∀ w w' t dt, R w w' → R (c.evolve w i t dt) (c'.evolve w' i (l * t) (l * dt))
  update : ∀ j < c.nField, ∀ w w', R w w' → R (c.updateF w j) (c'.updateF w' j)

/-- States that correspond. -/
structure ScaledSt (l : K) (R : σ → σ' → Prop) (s : St K σ) (s' : St K σ') : Prop where
  t : ∀ i, s'.t i = l * s.t i
  dt : ∀ i, s'.dt i = l * s.dt i
  w : R s.w s'.w
  snaps : List.Forall₂ R s.snaps s'.snaps

variable {l : K} {c : Cfg K F σ} {c' : Cfg K F σ'} {R : σ → σ' → Prop}

theorem scaled_update {f f' : ℕ → K} (h : ∀ k, f' k = l * f k) (i : ℕ) (v : K) :
    ∀ k, Function.update f' i (l * v) k = l * Function.update f i v k := by
  intro k
  by_cases hk : k = i
  · subst hk
    rw [Function.update_self, Function.update_self]
  · rw [Function.update_of_ne hk, Function.update_of_ne hk, h k]

theorem scaled_evolve (h : Scaled l c c' R) {s : St K σ} {s' : St K σ'} (hr : ScaledSt l R s s') {i : ℕ}
    (hi : i < c.nBunch) (b : Bool) (tc tn d : K) :
    ScaledSt l R (evolveBunch c b s i tc tn d) (evolveBunch c' b s' i (l * tc) (l * tn) (l * d)) := by
  have hw := h.evolve i hi _ _ tc d hr.w
  have hfin : ∀ {f f' : ℕ → K} (_ : ∀ k, f' k = l * f k), ∀ k,
      (if ¬ (c'.f32 (l * tn) = c'.f32 c'.tFinal) ∧ l * tn + f' i > c'.tFinal then
        Function.update f' i (c'.tFinal - l * tn) else f') k =
      l * (if ¬ (c.f32 tn = c.f32 c.tFinal) ∧ tn + f i > c.tFinal then Function.update f i (c.tFinal - tn) else f) k := by
    intro f f' hf k
    rw [h.tFinal, h.f32, h.f32, hf i, ← mul_add, ← mul_sub]
    have hgt : l * (tn + f i) > l * c.tFinal ↔ tn + f i > c.tFinal := mul_lt_mul_iff_right₀ h.pos
    simp only [hgt]
    split_ifs
    · exact scaled_update hf i _ k
    · exact hf k
  refine ⟨?_, ?_, hw, hr.snaps⟩
  · simp only [evolveBunch_t]
    rw [hr.t i, ← mul_add]
    exact scaled_update hr.t i _
  · unfold evolveBunch
    dsimp only
    rw [h.dtBunch i hi]
    cases c.dtBunch i with
    | none =>
      dsimp only [Option.map_none]
      rw [h.autoDt i hi _ _ hw]
      exact hfin (scaled_update hr.dt i _)
    | some d => exact hfin hr.dt

theorem scaled_pushAll (h : Scaled l c c' R) {s : St K σ} {s' : St K σ'} (hr : ScaledSt l R s s') (tn : K) (n : ℕ)
    (hn : n ≤ c.nBunch) : ScaledSt l R (pushAll c tn n s) (pushAll c' (l * tn) n s') := by
  induction n with
  | zero => exact hr
  | succ n ih =>
    have h1 := ih (by omega)
    show ScaledSt l R (evolveBunch c true (pushAll c tn n s) n ((pushAll c tn n s).t n) tn (tn - (pushAll c tn n s).t n))
      (evolveBunch c' true (pushAll c' (l * tn) n s') n ((pushAll c' (l * tn) n s').t n) (l * tn)
        (l * tn - (pushAll c' (l * tn) n s').t n))
    rw [h1.t n, ← mul_sub]
    exact scaled_evolve h h1 (by omega) _ _ _ _

theorem scaled_advance (h : Scaled l c c' R) {s : St K σ} {s' : St K σ'} (hr : ScaledSt l R s s') (i : ℕ) :
    ScaledSt l R (advance c s i) (advance c' s' i) := by
  unfold advance
  dsimp only
  rw [h.nBunch, h.nField, hr.t i, hr.dt i, ← mul_add]
  by_cases h1 : i < c.nBunch
  · rw [if_pos h1, if_pos h1]
    exact scaled_evolve h hr h1 _ _ _ _
  rw [if_neg h1, if_neg h1]
  by_cases h2 : i < c.nBunch + c.nField
  · rw [if_pos h2, if_pos h2]
    refine ⟨?_, hr.dt, h.update _ (by omega) _ _ hr.w, hr.snaps⟩
    exact scaled_update hr.t i _
  · rw [if_neg h2, if_neg h2, h.pushBefore]
    have h3 : ScaledSt l R (if c.pushBeforeDiags = true then pushAll c (s.t i + s.dt i) c.nBunch s else s)
        (if c.pushBeforeDiags = true then pushAll c' (l * (s.t i + s.dt i)) c.nBunch s' else s') := by
      split_ifs
      · exact scaled_pushAll h hr _ _ le_rfl
      · exact hr
    revert h3
    generalize (if c.pushBeforeDiags = true then pushAll c (s.t i + s.dt i) c.nBunch s else s) = x
    generalize (if c.pushBeforeDiags = true then pushAll c' (l * (s.t i + s.dt i)) c.nBunch s' else s') = x'
    intro h3
    refine ⟨?_, h3.dt, h3.w, ?_⟩
    · intro k
      unfold generateDiagnostics
      dsimp only
      rw [h3.t i, ← mul_add]
      exact scaled_update h3.t i _ k
    · exact List.rel_append h3.snaps (.cons h3.w .nil)

theorem argmin_ext {g g' : ℕ → F} (h : ∀ i, g' i = g i) (n : ℕ) : argmin g' n = argmin g n := by
  rw [funext h]

theorem scaled_step (h : Scaled l c c' R) {s : St K σ} {s' : St K σ'} (hr : ScaledSt l R s s') :
    match step c s with
    | none => step c' s' = none
    | some x => ∃ x', step c' s' = some x' ∧ ScaledSt l R x x' := by
  have hg : ∀ i, c'.f32 (s'.t i + s'.dt i) = c.f32 (s.t i + s.dt i) := by
    intro i
    rw [hr.t i, hr.dt i, ← mul_add, h.f32]
  have hn : c'.nObj = c.nObj := by
    unfold Cfg.nObj
    rw [h.nBunch, h.nField, h.nDiag]
  unfold step
  dsimp only
  rw [hn, argmin_ext hg, hg, h.tFinal, h.f32]
  split_ifs with h1
  · rfl
  · exact ⟨_, rfl, scaled_advance h hr _⟩

theorem scaled_run (h : Scaled l c c' R) (n : ℕ) {s : St K σ} {s' : St K σ'} (hr : ScaledSt l R s s') :
    match run c n s with
    | none => run c' n s' = none
    | some x => ∃ x', run c' n s' = some x' ∧ ScaledSt l R x x' := by
  induction n generalizing s s' with
  | zero => rfl
  | succ n ih =>
    have h1 := scaled_step h hr
    unfold run
    cases hs : step c s with
    | none =>
      rw [hs] at h1
      dsimp only at h1 ⊢
      rw [h1]
      exact ⟨s', rfl, hr⟩
    | some x =>
      rw [hs] at h1
      obtain ⟨x', h2, h3⟩ := h1
      rw [h2]
      exact ih h3

theorem initFields_blank (c : Cfg K F σ) (w : σ) (n : ℕ) :
    (initFields c n (blank w)).t = (fun _ => 0) ∧ (initFields c n (blank w)).snaps = [] := by
  induction n with
  | zero => exact ⟨rfl, rfl⟩
  | succ n ih => exact ih

theorem scaled_start (h : Scaled l c c' R) {w : σ} {w' : σ'} (hw : R w w') : ScaledSt l R (start c w) (start c' w') := by
  have h1 : ∀ n ≤ c.nField, R (initFields c n (blank w)).w (initFields c' n (blank w')).w := by
    intro n hn
    induction n with
    | zero => exact hw
    | succ n ih => exact h.update n (by omega) _ _ (ih (by omega))
  have h3 := h1 c.nField le_rfl
  have h4 := initFields_blank c w c.nField
  have h5 := initFields_blank c' w' c.nField
  unfold start generateDiagnostics
  rw [h.nField]
  refine ⟨?_, ?_, h3, ?_⟩
  · intro i
    dsimp only
    rw [h4.1, h5.1, mul_zero]
  · intro i
    dsimp only
    unfold Cfg.dt0
    rw [h.nBunch, h.nField]
    split_ifs with h6 h7
    · rw [h.dtBunch i h6]
      cases c.dtBunch i with
      | none => exact h.autoDt i h6 _ _ h3
      | some d => rfl
    · exact h.dtField _ (by omega)
    · unfold Cfg.dtDiag
      rw [h.tFinal, h.nDiag, mul_div_assoc]
  · dsimp only
    rw [h4.2, h5.2]
    exact .cons h3 .nil

/-- Trackings on different scales of time return corresponding bunches and snapshots. -/
theorem scaled_tracking (h : Scaled l c c' R) {w : σ} {w' : σ'} (hw : R w w') {fuel : ℕ} {s : St K σ}
    (hs : doTracking c fuel w = .returned s) :
    ∃ s', doTracking c' fuel w' = .returned s' ∧ R s.w s'.w ∧ List.Forall₂ R s.snaps s'.snaps := by
  have hn : c'.nObj = c.nObj := by
    unfold Cfg.nObj
    rw [h.nBunch, h.nField, h.nDiag]
  have h1 := scaled_run h fuel (scaled_start h hw)
  unfold doTracking at hs ⊢
  rw [hn, h.nDiag, h.nBunch, h.opmd]
  split_ifs at hs ⊢ with h2 h3 h6
  · cases hr : run c fuel (start c w) with
    | none => rw [hr] at hs; cases hs
    | some x => rw [hr] at hs; cases hs
  · cases hr : run c fuel (start c w) with
    | none => rw [hr] at hs; cases hs
    | some x =>
      rw [hr] at hs h1
      obtain ⟨x', h4, h5⟩ := h1
      rw [h4]
      dsimp only at hs ⊢
      injection hs with hs
      subst hs
      exact ⟨x', rfl, h5.w, h5.snaps⟩

end WakeT.Tracker
