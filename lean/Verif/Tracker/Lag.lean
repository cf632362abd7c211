import Verif.Tracker.Props

/-! # How old the bunches are when a field is calculated from them (C122) -/

set_option linter.unusedSectionVars false

namespace WakeT.Tracker

variable {K F σ : Type*} [Field K] [LinearOrder K] [IsStrictOrderedRing K]
  [LinearOrder F]

/-- No bunch asks for a step longer than `D`. -/
structure Cfg.Below (c : Cfg K F σ) (D : K) : Prop where
  bunch : ∀ i < c.nBunch, ∀ d, c.dtBunch i = some d → d ≤ D
  auto : ∀ i < c.nBunch, c.dtBunch i = none → ∀ w, c.autoDt w i ≤ D

theorem prefix_append_of {l evs before : List (Ev K)} {e : Ev K} (he : e ∉ evs) (h : before ++ [e] <+: l ++ evs) :
    before ++ [e] <+: l := by
  induction evs using List.reverseRecOn with
  | nil => simpa using h
  | append_singleton evs e' ih =>
    rw [← List.append_assoc] at h
    rcases List.prefix_concat_iff.mp h with h1 | h1
    · obtain ⟨-, h2⟩ := List.append_inj' h1 rfl
      exact absurd (by simp at h2; simp [h2]) he
    · exact ih (fun hm => he (by simp [hm])) h1

/-- Invariant: the steps, and the age of the bunches at the updates. -/
structure LInv (c : Cfg K F σ) (D : K) (s : St K σ) : Prop where
  dt : ∀ i < c.nBunch, s.dt i ≤ D
  lag : ∀ before j T, before ++ [Ev.update j T] <+: s.log → ∀ i < c.nBunch,
    ∃ τ, Tiles 0 (pushesOf i before) τ ∧ τ ≤ T ∧ T ≤ τ + D

theorem dtNew_below {c : Cfg K F σ} {D : K} (hD : c.Below D) {j : ℕ} (hj : j < c.nBunch) {d T d' : K} (h : DtNew c j d T d')
    (hd : d ≤ D) : d' ≤ D := by
  obtain ⟨d1, h1, h2⟩ := h
  have h3 : d1 ≤ D := by
    rcases h1 with rfl | ⟨hn, w, rfl⟩
    · exact hd
    · exact hD.auto j hj hn w
  rcases h2 with ⟨rfl, -⟩ | ⟨rfl, -, h4⟩
  · exact h3
  · linarith

theorem linv_start {c : Cfg K F σ} {D : K} (hD : c.Below D) (h0 : 0 ≤ D) (w : σ) : LInv c D (start c w) where
  dt i hi := by
    rw [start_dt]
    unfold Cfg.dt0
    rw [if_pos hi]
    cases hb : c.dtBunch i with
    | none => exact hD.auto i hi hb _
    | some d => exact hD.bunch i hi d hb
  lag before j T hpre i hi := by
    rw [start_log] at hpre
    have h1 := prefix_append_of (by simp) hpre
    have hT : T = 0 := by
      have : Ev.update j T ∈ (List.range c.nField).map fun j => (Ev.update j 0 : Ev K) := h1.subset (by simp)
      obtain ⟨m, -, hm⟩ := List.mem_map.mp this
      exact (Ev.update.inj hm).2.symm
    have h2 : pushesOf i before = [] := by
      obtain ⟨l, hl⟩ := h1
      have := congrArg (pushesOf i) hl
      rw [pushesOf_updates, List.append_assoc, pushesOf_append] at this
      exact (List.append_eq_nil_iff.mp this).1
    exact ⟨0, by rw [h2]; rfl, hT.ge, by rw [hT]; linarith⟩

theorem linv_step {c : Cfg K F σ} {D : K} (hD : c.Below D) {w0 : σ} (hm : StrictMono c.f32) (hn : 0 < c.nObj)
    {s s' : St K σ} (hI : Inv c w0 s) (hX : InvX c 0 s) (h : LInv c D s) (hs : step c s = some s') : LInv c D s' := by
  obtain ⟨i, E⟩ := effect_of_step hs hn
  refine ⟨fun j hj => ?_, ?_⟩
  · by_cases hji : j = i
    · subst hji
      rcases E.dtself with ⟨-, h1⟩ | h1
      · exact dtNew_below hD hj h1 (h.dt j hj)
      · rw [h1]
        exact h.dt j hj
    · rcases E.other j hji with ⟨-, h1⟩ | ⟨-, -, -, h1⟩
      · rw [h1]
        exact h.dt j hj
      · exact dtNew_below hD hj h1 (h.dt j hj)
  · obtain ⟨i, hi, hmin, hfirst, hle, rfl⟩ := step_some hs hn
    rcases Nat.lt_or_ge i c.nBunch with h1 | h1
    · rw [advance_bunch c s h1, evolveBunch_log]
      intro before j T hpre
      exact h.lag before j T (prefix_append_of (by simp) hpre)
    · have h1' : ¬ i < c.nBunch := by omega
      rcases Nat.lt_or_ge i (c.nBunch + c.nField) with h2 | h2
      · rw [advance_field c s h1' h2]
        intro before j T hpre k hk
        rcases List.prefix_concat_iff.mp hpre with h3 | h3
        · obtain ⟨h4, h5⟩ := List.append_inj' h3 rfl
          simp only [List.cons.injEq, and_true] at h5
          obtain ⟨-, rfl⟩ := Ev.update.inj h5
          rw [h4]
          refine ⟨s.t k, hI.tiles k hk, hX.ahead k (nBunch_lt_nObj c hk) i hi, ?_⟩
          have := hm.le_iff_le.mp (hmin k (nBunch_lt_nObj c hk))
          linarith [h.dt k hk]
        · exact h.lag before j T h3 k hk
      · have h2' : ¬ i < c.nBunch + c.nField := by omega
        rw [advance_diag c s h1' h2']
        intro before j T hpre
        have h3 : before ++ [Ev.update j T] <+: (beforeDiag c s (s.t i + s.dt i)).log :=
          prefix_append_of (by simp) hpre
        unfold beforeDiag at h3
        split_ifs at h3
        · rw [pushAll_log] at h3
          exact h.lag before j T (prefix_append_of (by simp) h3)
        · exact h.lag before j T h3

/-- When a field is updated, each bunch has been pushed to a time not later than that of the
update, and not earlier than by one step. -/
theorem update_lag (c : Cfg K F σ) (w : σ) (n : ℕ) (s : St K σ) (hp : c.Positive) (hm : StrictMono c.f32) {D : K}
    (hD : c.Below D) (h0 : 0 ≤ D) (h : doTracking c n w = .returned s) (before after : List (Ev K)) (j : ℕ) (T : K)
    (hl : s.log = before ++ .update j T :: after) :
    ∀ i < c.nBunch, ∃ τ, Tiles 0 (pushesOf i before) τ ∧ τ ≤ T ∧ T ≤ τ + D := by
  obtain ⟨h1, h2, h3⟩ := doTracking_returned h
  have key := run_induction (fun s => Inv c w s ∧ InvX c 0 s ∧ LInv c D s) ?_ n (start c w) s ?_ h3
  · exact key.1.2.2.lag before j T ⟨after, by rw [hl]; simp⟩
  · rintro s s' ⟨a1, a2, a3⟩ hs
    exact ⟨inv_step hp hm.monotone h2 s s' a1 hs, invX_step hp.bounded hp hm h2 s s' a2 hs,
      linv_step hD hm h2 a1 a2 a3 hs⟩
  · exact ⟨inv_start c w hp hm.monotone, invX_start hp.bounded hp w, linv_start hD h0 w⟩

end WakeT.Tracker
