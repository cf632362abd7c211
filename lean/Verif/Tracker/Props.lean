import Verif.Tracker.Invariant
import Verif.Tracker.Exact
import Verif.Tracker.Replay
import Mathlib.Tactic.NormNum
import Mathlib.Algebra.Order.Floor.Ring
import Mathlib.Data.Rat.Floor

/-!
# Properties C01 - C08: the tracker

All theorems are about `doTracking`, the model of `Tracker.do_tracking`, for
every number of bunches, fields and diagnostics, every time step, every
adaptive step function and every behaviour of the bunches and fields.

`Monotone c.f32` is the only assumption on the single-precision cast unless
`StrictMono c.f32` is stated (no two different times are confused by the cast).
-/

set_option linter.unusedSectionVars false

namespace WakeT.Tracker

variable {K F σ : Type*} [Field K] [LinearOrder K] [IsStrictOrderedRing K]
  [LinearOrder F]

/-! ### A concrete tracker used to show that hypotheses can be met

Two bunches (one with constant, one with adaptive time step), one field and
two diagnostics. The world is the total pushed time. -/

/-- A concrete configuration (not part of the model of the code). -/
def demo : Cfg ℚ ℚ ℚ where
  tFinal := 1
  nBunch := 2
  nField := 1
  nDiag := 2
  dtBunch := fun i => if i = 0 then some (3 / 10) else none
  dtField := fun _ => 1 / 2
  autoDt := fun w _ => 2 / 5 + w ^ 2
  pushBeforeDiags := true
  opmd := false
  f32 := id
  evolve := fun w _ _ dt => w + dt
  updateF := fun w _ => w

theorem demo_positive : demo.Positive where
  tFinal := by norm_num [demo]
  bunch := by
    intro i _ d hd
    simp only [demo] at hd
    split at hd
    · cases hd; norm_num
    · cases hd
  auto := by intro w i; simp only [demo]; positivity
  field := by intro j _; norm_num [demo]

theorem demo_bounded : demo.Bounded (3 / 10) where
  bunch := by
    intro i _ d hd
    simp only [demo] at hd
    split at hd
    · cases hd; norm_num
    · cases hd
  auto := by intro w i; simp only [demo]; nlinarith [sq_nonneg w]
  field := by intro j _; norm_num [demo]
  diag := by intro _; norm_num [Cfg.dtDiag, demo]

/-- Observation of the result of a tracking: the log of events. -/
def Outcome.log? : Outcome (St K σ) → Option (List (Ev K))
  | .returned s => some s.log
  | _ => none

/-! ### C06: termination -/

/-- **C06.** If all time steps (constant, adaptive, field, diagnostics) are at
least `δ > 0`, the tracking returns after at most
`number of objects * ⌈t_final / δ⌉` iterations. -/
theorem tracking_terminates [FloorSemiring K] (c : Cfg K F σ) (w : σ) {δ : K} (hδ : 0 < δ)
    (ht : 0 < c.tFinal) (hb : c.Bounded δ) (hm : StrictMono c.f32) (hn : 0 < c.nDiag) :
    ∃ s, doTracking c (c.nObj * ⌈c.tFinal / δ⌉₊ + 1) w = .returned s := by
  have hp := hb.positive hδ ht
  have ho : 0 < c.nObj := by unfold Cfg.nObj; simp [hn]
  obtain ⟨r, hr⟩ := run_terminates hb hδ hp hm ho (c.nObj * ⌈c.tFinal / δ⌉₊ + 1) (start c w)
    (invX_start hb hp w) (by simp [potential, start_t])
  refine ⟨r, ?_⟩
  have h0 : ¬ (c.nDiag = 0) := by omega
  have h1 : ¬ (c.nObj = 0) := by omega
  simp [doTracking, h0, h1, hr]

example : ∃ s, doTracking demo (4 * ⌈(1 : ℚ) / (3 / 10)⌉₊ + 1) 0 = .returned s :=
  tracking_terminates demo 0 (by norm_num) demo_positive.tFinal demo_bounded strictMono_id
    (by decide)

/-- Invariant behind the next theorem. -/
private theorem zero_step_inv {c : Cfg K F σ} {i : ℕ} (hi : i < c.nBunch)
    (hdt : c.dtBunch i = some 0) (hm : Monotone c.f32) (s s' : St K σ)
    (h : s.dt i = 0 ∧ c.f32 (s.t i) ≤ c.f32 c.tFinal) (hs : step c s = some s') :
    s'.dt i = 0 ∧ c.f32 (s'.t i) ≤ c.f32 c.tFinal := by
  have hn : 0 < c.nObj := by unfold Cfg.nObj; omega
  -- the new time step after a push to a time not beyond the end
  have hnew : ∀ (b : Bool) (s : St K σ) (tc tn d : K), s.dt i = 0 → c.f32 tn ≤ c.f32 c.tFinal →
      (evolveBunch c b s i tc tn d).dt i = 0 := by
    intro b s tc tn d h0 hle
    simp only [evolveBunch, hdt, h0, add_zero]
    split
    · rename_i h1
      exact absurd (hm h1.2.le) (by rw [not_le]; exact lt_of_le_of_ne hle h1.1)
    · exact h0
  have hall : ∀ (tn : K) (n : ℕ) (s : St K σ), s.dt i = 0 → c.f32 tn ≤ c.f32 c.tFinal →
      (pushAll c tn n s).dt i = 0 := by
    intro tn n s h0 hle
    induction n with
    | zero => exact h0
    | succ n ih =>
      simp only [pushAll]
      by_cases hin : i = n
      · subst hin; exact hnew _ _ _ _ _ ih hle
      · rw [evolveBunch_dt_ne _ _ _ _ _ _ _ hin]; exact ih
  obtain ⟨j, hj, hmin, _, hle, rfl⟩ := step_some hs hn
  rcases Nat.lt_or_ge j c.nBunch with h1 | h1
  · rw [advance_bunch c s h1]
    by_cases hij : i = j
    · subst hij
      exact ⟨hnew _ _ _ _ _ h.1 hle, by simpa using hle⟩
    · rw [evolveBunch_dt_ne _ _ _ _ _ _ _ hij]
      simp only [evolveBunch_t, Function.update_of_ne hij]
      exact h
  · have h1' : ¬ j < c.nBunch := by omega
    rcases Nat.lt_or_ge j (c.nBunch + c.nField) with h2 | h2
    · rw [advance_field c s h1' h2]
      have hij : i ≠ j := by omega
      simp only [Function.update_of_ne hij]
      exact h
    · rw [advance_diag c s h1' (by omega)]
      have hij : i ≠ j := by omega
      simp only [generateDiagnostics, Function.update_of_ne hij, beforeDiag]
      split
      · refine ⟨hall _ _ _ h.1 hle, ?_⟩
        rw [pushAll_t]; simp only [hi, if_true]; exact hle
      · exact h

/-- **C06**, necessity of positive steps: with a zero time step for one of the
bunches the tracking never ends. -/
theorem zero_step_never_ends (c : Cfg K F σ) (w : σ) {i : ℕ} (hi : i < c.nBunch)
    (hdt : c.dtBunch i = some 0) (ht : 0 ≤ c.tFinal) (hm : Monotone c.f32) (hn : 0 < c.nDiag)
    (fuel : ℕ) : doTracking c fuel w = .running := by
  have ho : ¬ c.nObj = 0 := by unfold Cfg.nObj; omega
  have h0 : ¬ (c.nDiag = 0) := by omega
  have hrun : run c fuel (start c w) = none := by
    cases hr : run c fuel (start c w) with
    | none => rfl
    | some r =>
      exfalso
      have hst : (start c w).dt i = 0 ∧ c.f32 ((start c w).t i) ≤ c.f32 c.tFinal := by
        constructor
        · rw [start_dt]; simp [Cfg.dt0, hi, hdt]
        · rw [start_t]; exact hm ht
      obtain ⟨h1, h2⟩ := run_induction _ (zero_step_inv hi hdt hm) fuel _ _ hst hr
      have h3 := step_none h2 i (nBunch_lt_nObj c hi)
      rw [h1.1, add_zero] at h3
      exact absurd h1.2 (not_le.mpr h3)
  simp [doTracking, h0, ho, hrun]

example : doTracking { demo with dtBunch := fun _ => some 0 } 1000 0 = .running :=
  zero_step_never_ends _ _ (i := 1) (by decide) rfl (by norm_num [demo]) monotone_id (by decide) _

/-! ### C01: arrival -/

/-- The first step of every bunch fits into the tracking. -/
def Cfg.FirstStepFits (c : Cfg K F σ) : Prop :=
  ∀ i < c.nBunch, (∀ d, c.dtBunch i = some d → d ≤ c.tFinal) ∧
    (c.dtBunch i = none → ∀ w, c.autoDt w i ≤ c.tFinal)

/-- **C01**, as the code compares times: when the tracking returns, the time
each bunch has been pushed for has the same single-precision value as
`t_final`. -/
theorem bunches_arrive_single_precision (c : Cfg K F σ) (w : σ) (n : ℕ) (s : St K σ)
    (hp : c.Positive) (hm : Monotone c.f32)
    (hfit : c.pushBeforeDiags = true ∨ c.FirstStepFits)
    (h : doTracking c n w = .returned s) :
    ∀ i < c.nBunch, c.f32 ((pushesOf i s.log).map Prod.snd).sum = c.f32 c.tFinal := by
  obtain ⟨hI, hN, hD⟩ := inv_returned hp hm h
  have hlast := step_none hN
  intro i hi
  have hsum : ((pushesOf i s.log).map Prod.snd).sum = s.t i := by
    have := (hI.tiles i hi).sum; simpa using this
  rw [hsum]
  have hio := nBunch_lt_nObj c hi
  rcases hI.bunch i hi with h1 | h1 | ⟨h1, h2⟩
  · exact h1
  · exact absurd (hm h1) (not_le.mpr (hlast i hio))
  · rcases hfit with hb | hf
    · -- the last diagnostics pushed the bunch to the end
      refine le_antisymm (hI.bunchLe i hi) ?_
      refine le_trans ?_ (hI.sync hb i hi)
      obtain ⟨k, hk, _, _⟩ := hI.diags
      rw [hk]
      apply hm
      by_contra hlt
      rw [not_le] at hlt
      have hDo : c.iDiag < c.nObj := by unfold Cfg.iDiag Cfg.nObj; simp [hD]
      have h3 := hlast _ hDo
      rw [hk, hI.dtdiag] at h3
      have hDpos := dtDiag_pos c hp hD
      have hnK : (0 : K) < c.nDiag := by exact_mod_cast hD
      have hkn : k < c.nDiag := by
        have : (k : K) < c.nDiag := by
          have h4 : (c.nDiag : K) * c.dtDiag = c.tFinal := by
            unfold Cfg.dtDiag; field_simp
          rw [← h4] at hlt
          exact lt_of_mul_lt_mul_right hlt hDpos.le
        exact_mod_cast this
      apply absurd h3 (not_lt.mpr (hm _))
      have : ((k + 1 : ℕ) : K) ≤ c.nDiag := by exact_mod_cast hkn
      have h4 : (c.nDiag : K) * c.dtDiag = c.tFinal := by
        unfold Cfg.dtDiag; field_simp
      calc (k : K) * c.dtDiag + c.dtDiag = ((k + 1 : ℕ) : K) * c.dtDiag := by push_cast; ring
        _ ≤ c.nDiag * c.dtDiag := mul_le_mul_of_nonneg_right this hDpos.le
        _ = c.tFinal := h4
    · exfalso
      have h3 := hlast i hio
      have h4 : s.t i + s.dt i ≤ c.tFinal := by
        rw [h1, h2, zero_add]
        simp only [Cfg.dt0, hi, if_true]
        cases hdb : c.dtBunch i with
        | none => exact (hf i hi).2 hdb _
        | some d => exact (hf i hi).1 d hdb
      exact absurd (hm h4) (not_le.mpr h3)

/-- **C01**: when the tracking returns, every bunch has been pushed for exactly
`t_final` (if the single-precision cast confuses no two times). -/
theorem bunches_end_at_final_time (c : Cfg K F σ) (w : σ) (n : ℕ) (s : St K σ)
    (hp : c.Positive) (hm : StrictMono c.f32)
    (hfit : c.pushBeforeDiags = true ∨ c.FirstStepFits)
    (h : doTracking c n w = .returned s) :
    ∀ i < c.nBunch, ((pushesOf i s.log).map Prod.snd).sum = c.tFinal :=
  fun i hi => hm.injective (bunches_arrive_single_precision c w n s hp hm.monotone hfit h i hi)

example : ∃ s, doTracking demo 100 0 = .returned s ∧
    ((pushesOf 0 s.log).map Prod.snd).sum = 1 ∧ ((pushesOf 1 s.log).map Prod.snd).sum = 1 := by
  have hrun : (doTracking demo 100 0).log?.isSome = true := by decide +kernel
  cases h : doTracking demo 100 0 with
  | returned s =>
    have := bunches_end_at_final_time demo 0 100 s demo_positive strictMono_id (Or.inl rfl) h
    exact ⟨s, rfl, this 0 (by decide), this 1 (by decide)⟩
  | raised e => rw [h] at hrun; simp [Outcome.log?] at hrun
  | running => rw [h] at hrun; simp [Outcome.log?] at hrun

/-- **C01** violated: with `push_bunches_before_diags=False` a bunch whose first
step is longer than the tracking is never pushed, because only later steps are
cut to the remaining time (tracker.py 299-302 is not applied to the first). -/
theorem bunch_never_pushed_witness :
    (doTracking { demo with dtBunch := fun _ => some 2, pushBeforeDiags := false } 100 0).log?
      = some [.update 0 0, .diag 0, .update 0 (1 / 2), .diag (1 / 2), .update 0 1, .diag 1] := by
  decide +kernel

/-- **C01** violated when the cast confuses times: with a (monotone) cast that
rounds down to integers, `t_final = 3/2` and steps of `1/4`, the bunch is pushed
to `7/4`, beyond the final time. For `float32` the same happens on the scale of
its resolution. -/
theorem overshoot_witness :
    let c : Cfg ℚ ℤ ℚ := { demo with
      f32 := fun x => ⌊x⌋, tFinal := 3 / 2, nBunch := 1, nField := 0, nDiag := 1,
      dtBunch := fun _ => some (1 / 4), pushBeforeDiags := false }
    Monotone c.f32 ∧ c.Positive ∧
    (doTracking c 100 0).log?.map (fun l => ((pushesOf 0 l).map Prod.snd).sum) = some (7 / 4) := by
  refine ⟨Int.floor_mono, ⟨by norm_num, ?_, demo_positive.auto, ?_⟩, by decide +kernel⟩
  · intro i _ d hd; simp at hd; subst hd; norm_num
  · intro j hj; norm_num [demo]

/-! ### C02: contiguity -/

/-- **C02**: the pushes of a bunch tile the time from 0 on; each push starts
exactly where the previous one ended. -/
theorem pushes_contiguous (c : Cfg K F σ) (w : σ) (n : ℕ) (s : St K σ)
    (hp : c.Positive) (hm : Monotone c.f32) (h : doTracking c n w = .returned s) :
    ∀ i < c.nBunch, ∃ T, Tiles 0 (pushesOf i s.log) T ∧ c.f32 T ≤ c.f32 c.tFinal := by
  obtain ⟨hI, _, _⟩ := inv_returned hp hm h
  exact fun i hi => ⟨s.t i, hI.tiles i hi, hI.bunchLe i hi⟩

/-- **C01 + C02**: with an exact cast the pushes tile `[0, t_final]`. -/
theorem pushes_tile (c : Cfg K F σ) (w : σ) (n : ℕ) (s : St K σ)
    (hp : c.Positive) (hm : StrictMono c.f32)
    (hfit : c.pushBeforeDiags = true ∨ c.FirstStepFits)
    (h : doTracking c n w = .returned s) :
    ∀ i < c.nBunch, Tiles 0 (pushesOf i s.log) c.tFinal := by
  intro i hi
  obtain ⟨T, hT, _⟩ := pushes_contiguous c w n s hp hm.monotone h i hi
  have h1 := bunches_end_at_final_time c w n s hp hm hfit h i hi
  have h2 := hT.sum
  rw [zero_add, h1] at h2
  rw [h2]; exact hT

example : (doTracking demo 100 0).log?.map (pushesOf 0) =
    some [(0, 3/10), (3/10, 1/5), (1/2, 3/10), (4/5, 1/5), (1, 0)] := by decide +kernel

/-! ### C03: order of events -/

/-- **C03**: events happen in time order, and none after the final time (as
compared by the code). -/
theorem events_in_order (c : Cfg K F σ) (w : σ) (n : ℕ) (s : St K σ)
    (hp : c.Positive) (hm : Monotone c.f32) (h : doTracking c n w = .returned s) :
    s.log.Pairwise (fun a b => c.f32 a.time ≤ c.f32 b.time) ∧
    ∀ e ∈ s.log, c.f32 e.time ≤ c.f32 c.tFinal := by
  obtain ⟨hI, _, _⟩ := inv_returned hp hm h
  exact ⟨hI.ordered, hI.noLater⟩

example : (doTracking demo 100 0).log? = some
    [.update 0 0, .diag 0,
     .push false 0 0 (3/10), .push false 1 0 (2/5), .update 0 (1/2),
     .push true 0 (3/10) (1/5), .push true 1 (2/5) (1/10), .diag (1/2),
     .push false 0 (1/2) (3/10), .push false 0 (4/5) (1/5), .push false 1 (1/2) (1/2),
     .update 0 1, .push true 0 1 0, .push true 1 1 0, .diag 1] := by
  decide +kernel

/-! ### C04: snapshots -/

/-- **C04**: number and times of the snapshots. The separation hypothesis says
that the cast distinguishes `t_final` from one diagnostics period later. -/
theorem snapshot_times (c : Cfg K F σ) (w : σ) (n : ℕ) (s : St K σ)
    (hp : c.Positive) (hm : Monotone c.f32)
    (hsep : c.f32 c.tFinal < c.f32 (c.tFinal + c.tFinal / c.nDiag))
    (h : doTracking c n w = .returned s) :
    s.snaps.length = c.nDiag + 1 ∧
    diagTimes s.log =
      (List.range (c.nDiag + 1)).map (fun k : ℕ => (k : K) * (c.tFinal / c.nDiag)) := by
  obtain ⟨hI, hN, hD⟩ := inv_returned hp hm h
  obtain ⟨k, hk1, hk2, hk3⟩ := hI.diags
  have hDo : c.iDiag < c.nObj := by unfold Cfg.iDiag Cfg.nObj; simp [hD]
  have h3 := step_none hN _ hDo
  rw [hk1, hI.dtdiag] at h3
  have hDpos := dtDiag_pos c hp hD
  have hnK : (0 : K) < c.nDiag := by exact_mod_cast hD
  have h4 : (c.nDiag : K) * c.dtDiag = c.tFinal := by
    unfold Cfg.dtDiag; field_simp
  have hk : k = c.nDiag := by
    rcases lt_trichotomy k c.nDiag with h5 | h5 | h5
    · exfalso
      apply absurd h3 (not_lt.mpr (hm _))
      have : ((k + 1 : ℕ) : K) ≤ c.nDiag := by exact_mod_cast h5
      calc (k : K) * c.dtDiag + c.dtDiag = ((k + 1 : ℕ) : K) * c.dtDiag := by push_cast; ring
        _ ≤ c.nDiag * c.dtDiag := mul_le_mul_of_nonneg_right this hDpos.le
        _ = c.tFinal := h4
    · exact h5
    · exfalso
      have : ((c.nDiag + 1 : ℕ) : K) ≤ k := by exact_mod_cast h5
      have h6 : c.tFinal + c.tFinal / c.nDiag ≤ k * c.dtDiag := by
        calc c.tFinal + c.tFinal / c.nDiag = ((c.nDiag + 1 : ℕ) : K) * c.dtDiag := by
              push_cast; rw [add_mul, h4, one_mul]; rfl
          _ ≤ k * c.dtDiag := mul_le_mul_of_nonneg_right this hDpos.le
      exact absurd (hsep.trans_le (hm h6)) (not_lt.mpr hk3)
  rw [hI.snapCount, hk2, hk]
  refine ⟨by simp, rfl⟩

/-- **C04**: at every snapshot, each bunch has been pushed to exactly the time
of the snapshot (with `push_bunches_before_diags`). -/
theorem snapshots_synchronised (c : Cfg K F σ) (w : σ) (n : ℕ) (s : St K σ)
    (hp : c.Positive) (hm : Monotone c.f32) (hb : c.pushBeforeDiags = true)
    (h : doTracking c n w = .returned s) (before after : List (Ev K)) (T : K)
    (hl : s.log = before ++ .diag T :: after) :
    ∀ i < c.nBunch, Tiles 0 (pushesOf i before) T := by
  obtain ⟨hI, _, _⟩ := inv_returned hp hm h
  intro i hi
  have := hI.diagSync hb before.length T (by rw [hl]; simp) i hi
  rw [hl] at this
  simpa using this

/-- **C04**: the stored snapshots are the bunches (the world) at the moments of
the diagnostics, i.e. the result of performing all earlier events of the log on
the initial world; the final world is the result of performing all of them. -/
theorem snapshots_replay (c : Cfg K F σ) (w : σ) (n : ℕ) (s : St K σ)
    (h : doTracking c n w = .returned s) :
    s.w = s.log.foldl c.apply w ∧ s.snaps = c.worldsAtDiags w s.log := by
  obtain ⟨_, _, h3⟩ := doTracking_returned h
  exact (run_induction _ (replayed_step (c := c)) n _ _ (replayed_start c w) h3).1

example : demo.f32 demo.tFinal < demo.f32 (demo.tFinal + demo.tFinal / demo.nDiag) := by
  norm_num [demo]

/-! ### C05: field updates -/

/-- **C05**: field `j` is updated at `0, dt, 2 dt, ...` up to the last multiple
of its period that does not exceed the final time (as compared by the code). -/
theorem field_updates (c : Cfg K F σ) (w : σ) (n : ℕ) (s : St K σ)
    (hp : c.Positive) (hm : Monotone c.f32) (h : doTracking c n w = .returned s) :
    ∀ j < c.nField, ∃ k : ℕ,
      updateTimes j s.log = (List.range (k + 1)).map (fun m : ℕ => (m : K) * c.dtField j) ∧
      c.f32 (k * c.dtField j) ≤ c.f32 c.tFinal ∧
      c.f32 c.tFinal < c.f32 ((k + 1) * c.dtField j) := by
  obtain ⟨hI, hN, _⟩ := inv_returned hp hm h
  intro j hj
  obtain ⟨k, hk1, hk2, hk3⟩ := hI.updates j hj
  refine ⟨k, hk2, hk3, ?_⟩
  have := step_none hN _ (field_lt_nObj c hj)
  rw [hk1, hI.dtfield j hj] at this
  rwa [add_mul, one_mul]

/-- **C05**, exact comparison: `⌊t_final / dt⌋ + 1` updates. -/
theorem field_updates_count [FloorSemiring K] (c : Cfg K F σ) (w : σ) (n : ℕ) (s : St K σ)
    (hp : c.Positive) (hm : StrictMono c.f32) (h : doTracking c n w = .returned s) :
    ∀ j < c.nField, updateTimes j s.log =
      (List.range (⌊c.tFinal / c.dtField j⌋₊ + 1)).map (fun m : ℕ => (m : K) * c.dtField j) := by
  intro j hj
  obtain ⟨k, hk1, hk2, hk3⟩ := field_updates c w n s hp hm.monotone h j hj
  have hd := hp.field j hj
  have h2 := hm.le_iff_le.mp hk2
  have h3 := hm.lt_iff_lt.mp hk3
  have : ⌊c.tFinal / c.dtField j⌋₊ = k := by
    rw [Nat.floor_eq_iff (div_nonneg hp.tFinal.le hd.le)]
    exact ⟨by rw [le_div_iff₀ hd]; exact h2, by rw [div_lt_iff₀ hd]; exact h3⟩
  rw [this]; exact hk1

example : (doTracking demo 100 0).log?.map (updateTimes 0) = some [0, 1/2, 1] := by
  decide +kernel

/-! ### C07: events of the same time -/

/-- **C07**: of two events, the first one is earlier, or they have the same time
and happen in the order: pushes of bunches that are due, field updates,
diagnostics (with the pushes they force). -/
theorem same_time_order (c : Cfg K F σ) (w : σ) (n : ℕ) (s : St K σ)
    (hp : c.Positive) (hm : StrictMono c.f32) (h : doTracking c n w = .returned s) :
    s.log.Pairwise (fun a b => a.time < b.time ∨ (a.time = b.time ∧ a.rank ≤ b.rank)) := by
  obtain ⟨_, h2, h3⟩ := doTracking_returned h
  exact (run_induction (InvX c 0) (invX_step hp.bounded hp hm h2) n _ _
    (invX_start hp.bounded hp w) h3).1.ordered

example : (Ev.push false 0 (1/2 : ℚ) (1/2)).time = (Ev.update 0 (1 : ℚ)).time ∧
    (Ev.push false 0 (1/2 : ℚ) (1/2)).rank < (Ev.update 0 (1 : ℚ)).rank := by
  constructor
  · norm_num [Ev.time]
  · decide

/-! ### C08: no diagnostics -/

/-- **C08** violated: with `n_diags = 0` (the default of `Tracker`) the tracking
never returns normally, whatever the bunches and fields are. -/
theorem no_diags_never_returns (c : Cfg K F σ) (w : σ) (fuel : ℕ) (hn : c.nDiag = 0) :
    ∀ s, doTracking c fuel w ≠ .returned s := by
  intro s h
  have := (doTracking_returned h).1
  omega

/-- **C08** violated: in particular, with a bunch to track it raises an
`AttributeError` at once. -/
theorem no_diags_raises (c : Cfg K F σ) (w : σ) (fuel : ℕ) (hn : c.nDiag = 0)
    (hb : 0 < c.nBunch) : doTracking c fuel w = .raised .attributeError := by
  simp [doTracking, hn, hb]

example : doTracking { demo with nDiag := 0 } 1000 0 = .raised .attributeError :=
  no_diags_raises _ _ _ rfl (by decide)

end WakeT.Tracker
