import Verif.Tracker.Props
import Verif.Base.Rounding
import Mathlib.Algebra.Order.Ring.Pow

/-!
# The tracking loop with rounding

The loop of `wake_t/tracking/tracker.py` (see `Verif.Tracker.Model`) with a rounding `rnd` after each operation on times.
-/

set_option linter.unusedSectionVars false

namespace WakeT.Tracker.Rounded

/-! ### Model -/

section
variable {K F σ : Type*} [Field K] [LinearOrder K] [IsStrictOrderedRing K] [LinearOrder F]
variable (rnd : K → K)

/-- `self.dt_diags = self.t_final/self.n_diags` (tracker.py 131). -/
def dtDiag (c : Cfg K F σ) : K := rnd (c.tFinal / (c.nDiag : K))

/-- Initial time step of object `i` (tracker.py 119-120, 131-132, 175-179). -/
def dt0 (c : Cfg K F σ) (w : σ) (i : ℕ) : K := if i < c.nBunch + c.nField then c.dt0 w i else dtDiag rnd c

/-- `Tracker.evolve_bunch` (tracker.py 264-302) and the advance of the bunch clock (241, 245). -/
def evolveBunch (c : Cfg K F σ) (forced : Bool) (s : St K σ) (i : ℕ) (tCurrent tNext dtNext : K) : St K σ :=
  let w := c.evolve s.w i tCurrent dtNext                                          -- 290
  let dt := match c.dtBunch i with                                                 -- 292-293
    | none => Function.update s.dt i (c.autoDt w i)
    | some _ => s.dt
  let dt := if ¬ (c.f32 tNext = c.f32 c.tFinal) ∧ rnd (tNext + dt i) > c.tFinal    -- 295-302
    then Function.update dt i (rnd (c.tFinal - tNext)) else dt
  { t := Function.update s.t i (rnd (s.t i + dtNext))
    dt := dt
    w := w
    snaps := s.snaps
    log := s.log ++ [.push forced i tCurrent dtNext] }

/-- Loop tracker.py 230-241: every bunch is evolved to the diagnostics time. -/
def pushAll (c : Cfg K F σ) (tNext : K) : ℕ → St K σ → St K σ
  | 0, s => s
  | n + 1, s =>
    let s := pushAll c tNext n s
    evolveBunch rnd c true s n (s.t n) tNext (rnd (tNext - s.t n))

/-- Body of the loop for the object with index `i` (tracker.py 197-245). -/
def advance (c : Cfg K F σ) (s : St K σ) (i : ℕ) : St K σ :=
  let tNext := rnd (s.t i + s.dt i)
  let dtNext := s.dt i
  if i < c.nBunch then evolveBunch rnd c false s i (s.t i) tNext dtNext            -- 212-220
  else if i < c.nBunch + c.nField then                                             -- 223-224
    { s with
      w := c.updateF s.w (i - c.nBunch)
      log := s.log ++ [.update (i - c.nBunch) tNext]
      t := Function.update s.t i (rnd (s.t i + dtNext)) }
  else                                                                             -- 227-242
    let s := if c.pushBeforeDiags then pushAll rnd c tNext c.nBunch s else s
    let s := generateDiagnostics s tNext
    { s with t := Function.update s.t i (rnd (s.t i + dtNext)) }

/-- One iteration of the `while True` loop (tracker.py 182-248); `none` is `break`. -/
def step (c : Cfg K F σ) (s : St K σ) : Option (St K σ) :=
  let i := argmin (fun i => c.f32 (rnd (s.t i + s.dt i))) (c.nObj - 1)
  if c.f32 (rnd (s.t i + s.dt i)) > c.f32 c.tFinal then none
  else some (advance rnd c s i)

/-- The loop with a bound on the number of iterations (tracker.py 182-248). -/
def run (c : Cfg K F σ) : ℕ → St K σ → Option (St K σ)
  | 0, _ => none
  | n + 1, s =>
    match step rnd c s with
    | none => some s
    | some s' => run c n s'

/-- State on entry of the loop (tracker.py 163-179). -/
def start (c : Cfg K F σ) (w : σ) : St K σ :=
  let s := generateDiagnostics (initFields c c.nField (blank w)) 0
  { s with dt := dt0 rnd c s.w }

/-- `Tracker.do_tracking` (tracker.py 140-262). -/
def doTracking (c : Cfg K F σ) (fuel : ℕ) (w : σ) : Outcome (St K σ) :=
  if c.nDiag = 0 ∧ (0 < c.nBunch ∨ c.opmd = true) then .raised .attributeError
  else if c.nObj = 0 then .raised .valueError
  else match run rnd c fuel (start rnd c w) with
    | none => .running
    | some s => if c.nDiag = 0 then .raised .attributeError else .returned s

/-! ### Specification -/

/-- The time after `k` additions of `dt`. -/
def ticks (dt : K) : ℕ → K
  | 0 => 0
  | k + 1 => rnd (ticks dt k + dt)
end

/-! ### Without rounding -/

section
variable {K F σ : Type*} [Field K] [LinearOrder K] [IsStrictOrderedRing K] [LinearOrder F]

/-- Without rounding this is the loop of `Verif.Tracker.Model`. -/
theorem exact_tracking (c : Cfg K F σ) (fuel : ℕ) (w : σ) : doTracking id c fuel w = Tracker.doTracking c fuel w := by
  have e1 : ∀ b s i (x y z : K), evolveBunch id c b s i x y z = Tracker.evolveBunch c b s i x y z := fun _ _ _ _ _ _ => rfl
  have e2 : ∀ t n s, pushAll id c t n s = Tracker.pushAll c t n s := by
    intro t n s
    induction n with
    | zero => rfl
    | succ n ih => simp only [pushAll, Tracker.pushAll, ih, e1, id_eq]
  have e3 : ∀ s i, advance id c s i = Tracker.advance c s i := by
    intro s i
    simp only [advance, Tracker.advance, e1, e2, id_eq]
  have e4 : ∀ s, step id c s = Tracker.step c s := by
    intro s
    simp only [step, Tracker.step, e3, id_eq]
  have e5 : ∀ n s, run id c n s = Tracker.run c n s := by
    intro n
    induction n with
    | zero => intro s; rfl
    | succ n ih =>
      intro s
      simp only [run, Tracker.run, e4, ih]
      cases Tracker.step c s <;> rfl
  have e6 : start id c w = Tracker.start c w := by
    have : dt0 id c = c.dt0 := by
      funext w i
      simp only [dt0, dtDiag, Cfg.dt0, id_eq, Cfg.dtDiag]
      split_ifs <;> first | rfl | omega
    simp only [start, Tracker.start, this]
  simp only [doTracking, Tracker.doTracking, e5, e6]
  cases Tracker.run c fuel (Tracker.start c w) <;> rfl

/-! ### Number of snapshots -/

variable {rnd : K → K}

private theorem evolve_keeps (c : Cfg K F σ) (b : Bool) (s : St K σ) {i : ℕ} (x y z : K) {j : ℕ} (hj : j ≠ i) :
    (evolveBunch rnd c b s i x y z).t j = s.t j ∧ (evolveBunch rnd c b s i x y z).dt j = s.dt j ∧
      (evolveBunch rnd c b s i x y z).snaps = s.snaps ∧ diagTimes (evolveBunch rnd c b s i x y z).log = diagTimes s.log := by
  refine ⟨?_, ?_, rfl, ?_⟩
  · simp only [evolveBunch, Function.update_of_ne hj]
  · simp only [evolveBunch]
    cases c.dtBunch i <;> dsimp only <;> split_ifs <;> simp only [Function.update_of_ne hj]
  · simp [evolveBunch]

private theorem pushAll_keeps (c : Cfg K F σ) (tNext : K) (n : ℕ) (s : St K σ) {j : ℕ} (hj : n ≤ j) :
    (pushAll rnd c tNext n s).t j = s.t j ∧ (pushAll rnd c tNext n s).dt j = s.dt j ∧
      (pushAll rnd c tNext n s).snaps = s.snaps ∧ diagTimes (pushAll rnd c tNext n s).log = diagTimes s.log := by
  induction n with
  | zero => exact ⟨rfl, rfl, rfl, rfl⟩
  | succ n ih =>
    obtain ⟨a, b, e, d⟩ := ih (by omega)
    obtain ⟨a', b', e', d'⟩ := evolve_keeps (rnd := rnd) c true (pushAll rnd c tNext n s) ((pushAll rnd c tNext n s).t n) tNext
      (rnd (tNext - (pushAll rnd c tNext n s).t n)) (show j ≠ n by omega)
    exact ⟨a'.trans a, b'.trans b, e'.trans e, d'.trans d⟩

/-- What is known of the diagnostics after `k` of them. -/
private structure Seen (rnd : K → K) (c : Cfg K F σ) (s : St K σ) (k : ℕ) : Prop where
  t : s.t c.iDiag = ticks rnd (dtDiag rnd c) k
  dt : s.dt c.iDiag = dtDiag rnd c
  snaps : s.snaps.length = k + 1
  times : diagTimes s.log = (List.range (k + 1)).map (ticks rnd (dtDiag rnd c))
  past : ∀ j, 1 ≤ j → j ≤ k → c.f32 (ticks rnd (dtDiag rnd c) j) ≤ c.f32 c.tFinal

private theorem seen_start (c : Cfg K F σ) (w : σ) : Seen rnd c (start rnd c w) 0 where
  t := by simp [start, generateDiagnostics, initFields_t, blank, ticks]
  dt := by simp [start, dt0, Cfg.iDiag]
  snaps := by simp [start, generateDiagnostics, initFields_snaps, blank]
  times := by simp [start, generateDiagnostics, initFields_log, blank, ticks, diagTimes_updates]
  past := fun j h1 h2 => by omega

private theorem seen_step (c : Cfg K F σ) (hD : 0 < c.nDiag) {s s' : St K σ} {k : ℕ} (h : Seen rnd c s k) (hs : step rnd c s = some s') :
    ∃ k', Seen rnd c s' k' := by
  simp only [step] at hs
  generalize hi : argmin (fun i => c.f32 (rnd (s.t i + s.dt i))) (c.nObj - 1) = i at hs
  split at hs
  · cases hs
  · rename_i hle
    cases hs
    have hin : i ≤ c.nBunch + c.nField := by
      have := argmin_le (fun i => c.f32 (rnd (s.t i + s.dt i))) (c.nObj - 1)
      rw [hi] at this
      unfold Cfg.nObj at this
      split_ifs at this
      omega
    unfold advance
    by_cases h1 : i < c.nBunch
    · simp only [if_pos h1]
      obtain ⟨a, b, e, d⟩ := evolve_keeps (rnd := rnd) c false s (s.t i) (rnd (s.t i + s.dt i)) (s.dt i)
        (show c.iDiag ≠ i by unfold Cfg.iDiag; omega)
      exact ⟨k, a.trans h.t, b.trans h.dt, by rw [e]; exact h.snaps, d.trans h.times, h.past⟩
    · simp only [if_neg h1]
      by_cases h2 : i < c.nBunch + c.nField
      · simp only [if_pos h2]
        refine ⟨k, ?_, h.dt, h.snaps, ?_, h.past⟩
        · simp only [Function.update_of_ne (show c.iDiag ≠ i by unfold Cfg.iDiag; omega), h.t]
        · simp only [diagTimes_append, diagTimes_update, List.append_nil, h.times]
      · simp only [if_neg h2]
        obtain rfl : i = c.iDiag := by unfold Cfg.iDiag; omega
        generalize hs1 : (if c.pushBeforeDiags = true then pushAll rnd c (rnd (s.t c.iDiag + s.dt c.iDiag)) c.nBunch s else s) = s1
        have keep : s1.t c.iDiag = s.t c.iDiag ∧ s1.dt c.iDiag = s.dt c.iDiag ∧ s1.snaps = s.snaps ∧ diagTimes s1.log = diagTimes s.log := by
          rw [← hs1]
          split_ifs
          · exact pushAll_keeps c _ _ s (by unfold Cfg.iDiag; omega)
          · exact ⟨rfl, rfl, rfl, rfl⟩
        obtain ⟨a, b, e, d⟩ := keep
        have tk : rnd (s.t c.iDiag + s.dt c.iDiag) = ticks rnd (dtDiag rnd c) (k + 1) := by rw [h.t, h.dt]; rfl
        refine ⟨k + 1, ?_, ?_, ?_, ?_, ?_⟩
        · simp only [generateDiagnostics, Function.update_self, a, tk]
        · simp only [generateDiagnostics, b, h.dt]
        · simp only [generateDiagnostics, e, List.length_append, h.snaps, List.length_singleton]
        · simp only [generateDiagnostics, diagTimes_append, d, diagTimes_diag, h.times, tk]
          rw [List.range_succ (n := k + 1), List.map_append]
          rfl
        · intro j j1 j2
          rcases Nat.lt_or_ge j (k + 1) with hj | hj
          · exact h.past j j1 (by omega)
          · obtain rfl : j = k + 1 := by omega
            rw [tk] at hle
            exact not_lt.mp hle

/-- Whatever the rounding and the cast, the snapshots are taken at the times obtained by adding the interval again and again, until the first
of them that is, after the cast, beyond the end. -/
theorem snapshots_rounded (c : Cfg K F σ) (w : σ) (fuel : ℕ) {s : St K σ} (h : doTracking rnd c fuel w = .returned s) :
    ∃ k, s.snaps.length = k + 1 ∧ diagTimes s.log = (List.range (k + 1)).map (ticks rnd (rnd (c.tFinal / c.nDiag))) ∧
      (∀ j, 1 ≤ j → j ≤ k → c.f32 (ticks rnd (rnd (c.tFinal / c.nDiag)) j) ≤ c.f32 c.tFinal) ∧
      c.f32 c.tFinal < c.f32 (ticks rnd (rnd (c.tFinal / c.nDiag)) (k + 1)) := by
  unfold doTracking at h
  split_ifs at h with h1 h2 h3
  · split at h <;> cases h
  split at h
  · cases h
  · rename_i s1 hrun
    cases h
    have hD : 0 < c.nDiag := Nat.pos_of_ne_zero h3
    have key : ∀ n (s0 : St K σ), (∃ k, Seen rnd c s0 k) → run rnd c n s0 = some s → (∃ k, Seen rnd c s k) ∧ step rnd c s = none := by
      intro n
      induction n with
      | zero => intro s0 _ h; cases h
      | succ n ih =>
        intro s0 hk h
        simp only [run] at h
        split at h
        · rename_i hn
          cases h
          exact ⟨hk, hn⟩
        · rename_i s' hs'
          obtain ⟨k, hk⟩ := hk
          exact ih s' (seen_step c hD hk hs') h
    obtain ⟨⟨k, hk⟩, hn⟩ := key fuel _ ⟨0, seen_start c w⟩ hrun
    refine ⟨k, hk.snaps, hk.times, hk.past, ?_⟩
    simp only [step] at hn
    split at hn
    · rename_i hlt
      have hDo : c.iDiag ≤ c.nObj - 1 := by unfold Cfg.iDiag Cfg.nObj; simp [hD]
      have := lt_of_lt_of_le hlt (argmin_min (fun i => c.f32 (rnd (s.t i + s.dt i))) (c.nObj - 1) _ hDo)
      simp only [hk.t, hk.dt] at this
      exact this
    · cases hn
end

open WakeT.Base (Rounds)

variable {σ : Type*} {rnd : ℝ → ℝ} {ε : ℝ}

private theorem ticks_bounds (hr : Rounds ε rnd) (h0 : 0 ≤ ε) (h1 : ε ≤ 1) {dt : ℝ} (hdt : 0 ≤ dt) (k : ℕ) :
    k * dt * (1 - ε) ^ k ≤ ticks rnd dt k ∧ ticks rnd dt k ≤ k * dt * (1 + ε) ^ k := by
  induction k with
  | zero => simp [ticks]
  | succ k ih =>
    obtain ⟨a, b⟩ := ih
    have k0 : (0 : ℝ) ≤ k := Nat.cast_nonneg _
    have p0 : 0 ≤ (1 - ε) ^ k := pow_nonneg (by linarith) _
    have p1 : (1 - ε) ^ k ≤ 1 := pow_le_one₀ (by linarith) (by linarith)
    have q1 : 1 ≤ (1 + ε) ^ k := one_le_pow₀ (by linarith)
    have t0 : 0 ≤ ticks rnd dt k := le_trans (by positivity) a
    have h := hr (ticks rnd dt k + dt)
    rw [abs_of_nonneg (a := ticks rnd dt k + dt) (by linarith), abs_le] at h
    have l : ticks rnd dt (k + 1) = rnd (ticks rnd dt k + dt) := rfl
    rw [l]
    push_cast
    rw [pow_succ, pow_succ]
    constructor
    · have m1 : (k + 1) * dt * (1 - ε) ^ k ≤ ticks rnd dt k + dt := by nlinarith [mul_le_mul_of_nonneg_left p1 hdt]
      have m2 := mul_le_mul_of_nonneg_right m1 (by linarith : 0 ≤ 1 - ε)
      linarith
    · have m1 : ticks rnd dt k + dt ≤ (k + 1) * dt * (1 + ε) ^ k := by nlinarith [mul_le_mul_of_nonneg_left q1 hdt]
      have m2 := mul_le_mul_of_nonneg_right m1 (by linarith : 0 ≤ 1 + ε)
      linarith

private theorem pow_low (h1 : ε ≤ 1) (m : ℕ) : 1 - m * ε ≤ (1 - ε) ^ m := by
  have := one_add_mul_le_pow (a := -ε) (by linarith) m
  rw [← sub_eq_add_neg] at this
  linarith

theorem pow_high (h0 : 0 ≤ ε) (h1 : ε ≤ 1) (m : ℕ) : (1 + ε) ^ m * (1 - m * ε) ≤ 1 := by
  have p : 0 ≤ (1 + ε) ^ m := pow_nonneg (by linarith) _
  have a := mul_le_mul_of_nonneg_left (pow_low h1 m) p
  have b : (1 + ε) ^ m * (1 - ε) ^ m ≤ 1 := by
    rw [← mul_pow]
    exact pow_le_one₀ (by nlinarith) (by nlinarith)
  linarith

theorem clock_bounds (hr : Rounds ε rnd) (h0 : 0 ≤ ε) (h1 : ε ≤ 1) {T : ℝ} (hT : 0 ≤ T) (n k : ℕ) :
    k * (T / n) * (1 - ε) ^ (k + 1) ≤ ticks rnd (rnd (T / n)) k ∧ ticks rnd (rnd (T / n)) k ≤ k * (T / n) * (1 + ε) ^ (k + 1) := by
  have d0 : 0 ≤ T / n := div_nonneg hT (Nat.cast_nonneg _)
  have h := hr (T / n)
  rw [abs_of_nonneg d0, abs_le] at h
  have e0 : 0 ≤ rnd (T / n) := hr.nonneg h1 d0
  obtain ⟨a, b⟩ := ticks_bounds hr h0 h1 e0 k
  have k0 : (0 : ℝ) ≤ k := Nat.cast_nonneg _
  have p0 : 0 ≤ k * (1 - ε) ^ k := mul_nonneg k0 (pow_nonneg (by linarith) _)
  have q0 : 0 ≤ k * (1 + ε) ^ k := mul_nonneg k0 (pow_nonneg (by linarith) _)
  rw [pow_succ, pow_succ]
  constructor
  · have := mul_le_mul_of_nonneg_left (show (1 - ε) * (T / n) ≤ rnd (T / n) by linarith) p0
    linarith
  · have := mul_le_mul_of_nonneg_left (show rnd (T / n) ≤ (1 + ε) * (T / n) by linarith) q0
    linarith

/-- With rounding there are `n_diags + 1` snapshots if the last one is, after the cast, not beyond the end, and `n_diags` otherwise; they are
taken at equal distances up to rounding.  `η` is the relative error of the cast to single precision.  Missing: the claim that there are always
`n_diags + 1` snapshots, which is false (`snapshots_violated`). -/
theorem snapshot_count_partial (hr : Rounds ε rnd) (h0 : 0 ≤ ε) {c : Cfg ℝ ℝ σ} (hT : 0 < c.tFinal) (hm : Monotone c.f32) {η : ℝ}
    (hf : Rounds η c.f32) (hη : 0 ≤ η) (small : 6 * (c.nDiag : ℝ) ^ 2 * ε + 3 * c.nDiag * η < 1) {w : σ} {fuel : ℕ} {s : St ℝ σ}
    (h : doTracking rnd c fuel w = .returned s) :
    s.snaps.length = (if c.f32 (ticks rnd (rnd (c.tFinal / c.nDiag)) c.nDiag) ≤ c.f32 c.tFinal then c.nDiag + 1 else c.nDiag) ∧
    (diagTimes s.log).length = s.snaps.length ∧
    ∀ (k : ℕ) (t : ℝ), (diagTimes s.log)[k]? = some t → |t - k * (c.tFinal / c.nDiag)| ≤ 2 * (c.nDiag + 1) * ε * c.tFinal := by
  have hD : 0 < c.nDiag := by
    by_contra hz
    have hz : c.nDiag = 0 := by omega
    unfold doTracking at h
    split_ifs at h
    split at h <;> cases h
  obtain ⟨k, e1, e2, past, next⟩ := snapshots_rounded c w fuel h
  obtain ⟨n, hn⟩ : ∃ n, n = c.nDiag := ⟨_, rfl⟩
  obtain ⟨T, hTe⟩ : ∃ T, T = c.tFinal := ⟨_, rfl⟩
  rw [← hn] at small hD e2 past next ⊢
  rw [← hTe] at hT e2 past next ⊢
  have n1 : (1 : ℝ) ≤ n := by exact_mod_cast hD
  have n0 : (0 : ℝ) < n := by linarith
  have nη : 0 ≤ n * η := by positivity
  have nε : 0 ≤ (n : ℝ) ^ 2 * ε := by positivity
  have εn : ε ≤ (n : ℝ) ^ 2 * ε := by nlinarith [mul_nonneg h0 (by nlinarith : (0 : ℝ) ≤ (n : ℝ) ^ 2 - 1)]
  have εn1 : n * ε ≤ (n : ℝ) ^ 2 * ε := by nlinarith [mul_nonneg h0 (by nlinarith : (0 : ℝ) ≤ (n : ℝ) ^ 2 - n)]
  have h1 : ε ≤ 1 := by linarith
  have d0 : 0 < T / n := by positivity
  have nd : n * (T / n) = T := by field_simp
  have cb := clock_bounds hr h0 h1 hT.le n
  -- the last but one is before the end
  have early : ∀ j, j + 1 ≤ n → ticks rnd (rnd (T / n)) j ≤ T := by
    intro j hj
    refine (cb j).2.trans ?_
    have jn : (j : ℝ) ≤ n - 1 := by
      have : ((j + 1 : ℕ) : ℝ) ≤ n := by exact_mod_cast hj
      push_cast at this; linarith
    have hp := pow_high h0 h1 (j + 1)
    push_cast at hp
    have p : 0 ≤ (1 + ε) ^ (j + 1) := pow_nonneg (by linarith) _
    have w1 : (j : ℝ) ≤ n * (1 - (j + 1) * ε) := by nlinarith
    have w2 := mul_le_mul_of_nonneg_right w1 p
    have w3 : j * (1 + ε) ^ (j + 1) ≤ n := by nlinarith
    calc j * (T / n) * (1 + ε) ^ (j + 1) = (j * (1 + ε) ^ (j + 1)) * (T / n) := by ring
      _ ≤ n * (T / n) := mul_le_mul_of_nonneg_right w3 d0.le
      _ = T := nd
  -- the next one after the end is beyond it
  have late : c.f32 T < c.f32 (ticks rnd (rnd (T / n)) (n + 1)) := by
    have l := (cb (n + 1)).1
    have pl := pow_low h1 (n + 1 + 1)
    push_cast at l pl
    generalize ticks rnd (rnd (T / n)) (n + 1) = x at *
    have w1 : (n + 1) * (T / n) * (1 - (n + 1 + 1) * ε) ≤ x :=
      (mul_le_mul_of_nonneg_left pl (by positivity)).trans l
    have f1 := hf T
    have f2 := hf x
    have sm : (n + 1 + 1) * ε ≤ 1 := by nlinarith
    have x0 : 0 ≤ x := le_trans (mul_nonneg (by positivity) (by linarith)) w1
    rw [abs_of_pos hT, abs_le] at f1
    rw [abs_of_nonneg x0, abs_le] at f2
    have η1 : η ≤ 1 := by nlinarith
    have w2 := mul_le_mul_of_nonneg_right w1 (by linarith : 0 ≤ 1 - η)
    have w3 : (1 + η) * (n * (T / n)) < (n + 1) * (T / n) * (1 - (n + 1 + 1) * ε) * (1 - η) := by
      have core : (1 + η) * n < (n + 1) * (1 - (n + 1 + 1) * ε) * (1 - η) := by
        have i1 : 0 ≤ (n + 1) * ((n + 1 + 1) * ε * η) := by positivity
        have i2 : (n + 1) * ((n + 1 + 1) * ε) ≤ 6 * ((n : ℝ) ^ 2 * ε) := by nlinarith
        have i3 : (2 * n + 1) * η ≤ 3 * (n * η) := by nlinarith
        nlinarith
      calc (1 + η) * (n * (T / n)) = (1 + η) * n * (T / n) := by ring
        _ < (n + 1) * (1 - (n + 1 + 1) * ε) * (1 - η) * (T / n) := mul_lt_mul_of_pos_right core d0
        _ = _ := by ring
    rw [nd] at w3
    linarith
  have hk : n ≤ k + 1 := by
    by_contra hlt
    exact absurd next (not_lt.mpr (hm (early (k + 1) (by omega))))
  have hk' : k ≤ n := by
    by_contra hlt
    exact absurd late (not_lt.mpr (past (n + 1) (by omega) (by omega)))
  refine ⟨?_, by rw [e2, e1]; simp, ?_⟩
  · rw [e1]
    split_ifs with hle
    · have : k ≠ n - 1 := by
        rintro rfl
        rw [Nat.sub_add_cancel hD] at next
        exact absurd next (not_lt.mpr hle)
      omega
    · have : k ≠ n := by
        rintro rfl
        exact hle (past k hD le_rfl)
      omega
  · intro j t hj
    rw [e2] at hj
    rw [List.getElem?_map] at hj
    obtain ⟨i, hi, rfl⟩ := Option.map_eq_some_iff.mp hj
    obtain ⟨hlt, hii⟩ := List.getElem?_eq_some_iff.mp hi
    rw [List.getElem_range] at hii
    subst hii
    rw [List.length_range] at hlt
    obtain ⟨a, b⟩ := cb j
    have jn : (j : ℝ) ≤ n := by exact_mod_cast (by omega : j ≤ n)
    have j0 : (0 : ℝ) ≤ j := Nat.cast_nonneg _
    have J : j * (T / n) ≤ T := (mul_le_mul_of_nonneg_right jn d0.le).trans_eq nd
    have J0 : 0 ≤ j * (T / n) := by positivity
    have pl := pow_low h1 (j + 1)
    have ph := pow_high h0 h1 (j + 1)
    push_cast at pl ph
    have p : 0 ≤ (1 + ε) ^ (j + 1) := pow_nonneg (by linarith) _
    obtain ⟨δ, hδ⟩ : ∃ δ, δ = (n + 1) * ε := ⟨_, rfl⟩
    have jδ : (j + 1) * ε ≤ δ := by rw [hδ]; exact mul_le_mul_of_nonneg_right (by linarith) h0
    have δ0 : 0 ≤ δ := by rw [hδ]; positivity
    have δ1 : δ ≤ 1 / 2 := by rw [hδ]; nlinarith
    have up : (1 + ε) ^ (j + 1) ≤ 1 + 2 * δ := by
      generalize (1 + ε) ^ (j + 1) = P at *
      have : P * (1 - δ) ≤ 1 := le_trans (mul_le_mul_of_nonneg_left (by linarith) p) ph
      nlinarith
    have e : 2 * ((n : ℝ) + 1) * ε * T = 2 * δ * T := by rw [hδ]; ring
    rw [e, abs_le]
    have lo := mul_le_mul_of_nonneg_left pl J0
    have hi := mul_le_mul_of_nonneg_left up J0
    have m1 : j * (T / n) * ((j + 1) * ε) ≤ T * δ := mul_le_mul J jδ (by positivity) hT.le
    have m2 : j * (T / n) * δ ≤ T * δ := mul_le_mul_of_nonneg_right J δ0
    have m3 : 0 ≤ T * δ := mul_nonneg hT.le δ0
    rw [mul_sub, mul_one] at lo
    rw [mul_add, mul_one] at hi
    constructor <;> linarith

/-- The hypotheses with numbers of 64 and 32 bits and a hundred thousand snapshots. -/
example : 6 * ((10 ^ 5 : ℕ) : ℝ) ^ 2 * (1 / 2 ^ 53) + 3 * (10 ^ 5 : ℕ) * (1 / 2 ^ 24) < 1 := by norm_num

/-! ### A missing snapshot

The rounding of IEEE 754 for positive rational numbers, without limits on the exponent. -/

/-- The integer next to `x`; the even one if there are two. -/
def nearestEven (x : ℚ) : ℤ :=
  let n := ⌊x⌋
  if x - n < 1 / 2 then n else if 1 / 2 < x - n then n + 1 else if n % 2 = 0 then n else n + 1

/-- `2 ^ e`. -/
def pow2 (e : ℤ) : ℚ := if 0 ≤ e then ((2 ^ e.toNat : ℕ) : ℚ) else 1 / ((2 ^ (-e).toNat : ℕ) : ℚ)

/-- The `e` with `2 ^ e ≤ x < 2 ^ (e + 1)`, for positive `x`. -/
def exponent (x : ℚ) : ℤ :=
  let e : ℤ := (Nat.log2 x.num.natAbs : ℤ) - (Nat.log2 x.den : ℤ)
  if x < pow2 e then e - 1 else e

/-- Rounding to `p` binary digits, to the nearest number and to the even one of two (positive numbers only; zero otherwise). -/
def ieee (p : ℕ) (x : ℚ) : ℚ :=
  if x ≤ 0 then 0 else
    let u := pow2 (exponent x + 1 - p)
    nearestEven (x / u) * u

example : ieee 53 (1 / 10) = 3602879701896397 / 36028797018963968 ∧ ieee 24 (1 / 10) = 13421773 / 134217728 := by decide +kernel

/-- A stage of 0.5453198569255445 mm (`t_final` is this length over the speed of light in numbers of 64 bits), ten diagnostics, one bunch with
a constant step of the whole length. -/
def short : Cfg ℚ ℚ ℚ where
  tFinal := 16777233 / 2 ^ 63
  nBunch := 1
  nField := 0
  nDiag := 10
  dtBunch := fun _ => some (16777233 / 2 ^ 63)
  dtField := fun _ => 1
  autoDt := fun _ _ => 1
  pushBeforeDiags := true
  opmd := false
  f32 := ieee 24
  evolve := fun w _ _ dt => w + dt
  updateF := fun w _ => w

/-- The length of the stage over the speed of light. -/
theorem short_tFinal : ieee 53 (ieee 53 (5453198569255445 / 10 ^ 19) / 299792458) = short.tFinal := by decide +kernel

private def tau (k : ℕ) : ℚ :=
  (([0, 7205766705237197, 14411533410474394, 21617300115711592, 28823066820948788, 36028833526185984, 43234600231423184, 50440366936660384, 57646133641897584, 64851900347134784, 72057667052371984] : List ℕ).getD k 0 : ℚ) / 2 ^ 95

private theorem tau_dt : dtDiag (ieee 53) short = tau 1 := by decide +kernel

private theorem tau_ticks : ∀ k, k ≤ 10 → ticks (ieee 53) (dtDiag (ieee 53) short) k = tau k
  | 0, _ => by decide +kernel
  | k + 1, h => by
    have e : ∀ k < 10, ieee 53 (tau k + tau 1) = tau (k + 1) := by decide +kernel
    rw [ticks, tau_ticks k (by omega), tau_dt]
    exact e k (by omega)

/-- The clocks after `k` diagnostics. -/
private structure At (s : St ℚ ℚ) (k : ℕ) : Prop where
  t0 : s.t 0 = tau k
  t1 : s.t 1 = tau k
  dt0 : s.dt 0 = ieee 53 (short.tFinal - tau k)
  dt1 : s.dt 1 = tau 1

private theorem argmin_one_pos {f : ℕ → ℚ} (h : f 1 < f 0) : argmin f 1 = 1 := if_pos h

private theorem argmin_one_neg {f : ℕ → ℚ} (h : ¬ f 1 < f 0) : argmin f 1 = 0 := if_neg h

private theorem at_step {s : St ℚ ℚ} {k : ℕ} (h : At s k) (hk : k < 9) : ∃ s', step (ieee 53) short s = some s' ∧ At s' (k + 1) := by
  have n1 : ∀ k < 9, ieee 53 (tau k + tau 1) = tau (k + 1) ∧
      ieee 24 (tau (k + 1)) < ieee 24 (ieee 53 (tau k + ieee 53 (short.tFinal - tau k))) ∧ ieee 24 (tau (k + 1)) ≤ ieee 24 short.tFinal ∧
      ieee 53 (tau k + ieee 53 (tau (k + 1) - tau k)) = tau (k + 1) ∧ ieee 24 (tau (k + 1)) ≠ ieee 24 short.tFinal ∧
      ieee 53 (tau (k + 1) + ieee 53 (short.tFinal - tau k)) > short.tFinal := by decide +kernel
  obtain ⟨a1, a2, a3, a4, a5, a6⟩ := n1 k hk
  have ha : argmin (fun i => short.f32 (ieee 53 (s.t i + s.dt i))) (short.nObj - 1) = 1 := by
    refine argmin_one_pos (f := fun i => ieee 24 (ieee 53 (s.t i + s.dt i))) ?_
    show ieee 24 (ieee 53 (s.t 1 + s.dt 1)) < ieee 24 (ieee 53 (s.t 0 + s.dt 0))
    rw [h.t0, h.t1, h.dt0, h.dt1, a1]
    exact a2
  refine ⟨advance (ieee 53) short s 1, ?_, ?_⟩
  · simp only [step, ha]
    rw [h.t1, h.dt1, a1, if_neg]
    exact not_lt.mpr a3
  · have ht : ieee 53 (s.t 1 + s.dt 1) = tau (k + 1) := by rw [h.t1, h.dt1, a1]
    have e : advance (ieee 53) short s 1 =
        { generateDiagnostics (evolveBunch (ieee 53) short true s 0 (s.t 0) (tau (k + 1)) (ieee 53 (tau (k + 1) - s.t 0))) (tau (k + 1)) with
          t := Function.update (evolveBunch (ieee 53) short true s 0 (s.t 0) (tau (k + 1)) (ieee 53 (tau (k + 1) - s.t 0))).t 1
            (ieee 53 (s.t 1 + s.dt 1)) } := by
      rw [← ht]
      rfl
    have ed : (evolveBunch (ieee 53) short true s 0 (s.t 0) (tau (k + 1)) (ieee 53 (tau (k + 1) - s.t 0))).dt =
        Function.update s.dt 0 (ieee 53 (short.tFinal - tau (k + 1))) := by
      show (if ¬ (ieee 24 (tau (k + 1)) = ieee 24 short.tFinal) ∧ ieee 53 (tau (k + 1) + s.dt 0) > short.tFinal
        then Function.update s.dt 0 (ieee 53 (short.tFinal - tau (k + 1))) else s.dt) = _
      rw [if_pos ⟨a5, by rw [h.dt0]; exact a6⟩]
    have et : (evolveBunch (ieee 53) short true s 0 (s.t 0) (tau (k + 1)) (ieee 53 (tau (k + 1) - s.t 0))).t =
        Function.update s.t 0 (ieee 53 (s.t 0 + ieee 53 (tau (k + 1) - s.t 0))) := rfl
    rw [e]
    refine ⟨?_, ?_, ?_, ?_⟩
    · show Function.update (evolveBunch (ieee 53) short true s 0 (s.t 0) (tau (k + 1)) (ieee 53 (tau (k + 1) - s.t 0))).t 1 (ieee 53 (s.t 1 + s.dt 1)) 0 = _
      rw [Function.update_of_ne (by decide), et, Function.update_self, h.t0, a4]
    · show Function.update (evolveBunch (ieee 53) short true s 0 (s.t 0) (tau (k + 1)) (ieee 53 (tau (k + 1) - s.t 0))).t 1 (ieee 53 (s.t 1 + s.dt 1)) 1 = _
      rw [Function.update_self, ht]
    · show (evolveBunch (ieee 53) short true s 0 (s.t 0) (tau (k + 1)) (ieee 53 (tau (k + 1) - s.t 0))).dt 0 = _
      rw [ed, Function.update_self]
    · show (evolveBunch (ieee 53) short true s 0 (s.t 0) (tau (k + 1)) (ieee 53 (tau (k + 1) - s.t 0))).dt 1 = _
      rw [ed, Function.update_of_ne (by decide), h.dt1]

private theorem at_end {s : St ℚ ℚ} (h : At s 9) : ∃ s', step (ieee 53) short s = some s' ∧ step (ieee 53) short s' = none := by
  obtain ⟨a0, a1, a2, a3⟩ : ieee 53 (tau 9 + tau 1) = tau 10 ∧ ieee 24 short.tFinal < ieee 24 (tau 10) ∧
      ieee 53 (tau 9 + ieee 53 (short.tFinal - tau 9)) = short.tFinal ∧
      ieee 24 short.tFinal < ieee 24 (ieee 53 (short.tFinal + ieee 53 (short.tFinal - tau 9))) := by decide +kernel
  have ha : argmin (fun i => short.f32 (ieee 53 (s.t i + s.dt i))) (short.nObj - 1) = 0 := by
    refine argmin_one_neg (f := fun i => ieee 24 (ieee 53 (s.t i + s.dt i))) ?_
    show ¬ ieee 24 (ieee 53 (s.t 1 + s.dt 1)) < ieee 24 (ieee 53 (s.t 0 + s.dt 0))
    rw [h.t0, h.t1, h.dt0, h.dt1, a0, a2]
    exact not_lt.mpr a1.le
  refine ⟨advance (ieee 53) short s 0, ?_, ?_⟩
  · simp only [step, ha]
    rw [h.t0, h.dt0, a2, if_neg]
    exact lt_irrefl _
  · have hn : ieee 53 (s.t 0 + s.dt 0) = short.tFinal := by rw [h.t0, h.dt0, a2]
    have ed : (advance (ieee 53) short s 0).dt = s.dt := by
      show (if ¬ (ieee 24 (ieee 53 (s.t 0 + s.dt 0)) = ieee 24 short.tFinal) ∧ ieee 53 (ieee 53 (s.t 0 + s.dt 0) + s.dt 0) > short.tFinal
        then Function.update s.dt 0 (ieee 53 (short.tFinal - ieee 53 (s.t 0 + s.dt 0))) else s.dt) = _
      rw [hn, if_neg fun hh => hh.1 rfl]
    have et : (advance (ieee 53) short s 0).t = Function.update s.t 0 short.tFinal := by
      rw [← hn]
      rfl
    have all : ∀ i ≤ 1, ieee 24 short.tFinal < ieee 24 (ieee 53 ((advance (ieee 53) short s 0).t i + (advance (ieee 53) short s 0).dt i)) := by
      intro i hi
      rw [ed, et]
      obtain rfl | rfl : i = 0 ∨ i = 1 := by omega
      · rw [Function.update_self, h.dt0]; exact a3
      · rw [Function.update_of_ne (by decide), h.t1, h.dt1, a0]; exact a1
    simp only [step]
    rw [if_pos]
    exact all _ (argmin_le _ 1)

/-- The last snapshot is missing: with numbers of 64 bits the tenth multiple of the interval is larger than `t_final` by a rounding error, and
the numbers of 32 bits next to the two are different. -/
theorem snapshots_violated : ∃ s, doTracking (ieee 53) short 100 0 = .returned s ∧ s.snaps.length = 10 ∧
    ∀ t ∈ diagTimes s.log, t < 91 / 100 * short.tFinal := by
  have ret : ∃ s, doTracking (ieee 53) short 100 0 = .returned s := by
    have st : At (start (ieee 53) short 0) 0 := by
      refine ⟨by decide +kernel, by decide +kernel, by decide +kernel, by decide +kernel⟩
    have go : ∀ m k (s : St ℚ ℚ), m + k = 9 → At s k → ∀ fuel, m + 2 ≤ fuel → ∃ s', run (ieee 53) short (fuel + 1) s = some s' := by
      intro m
      induction m with
      | zero =>
        intro k s hk hs fuel hf
        obtain rfl : k = 9 := by omega
        obtain ⟨s1, h1, h2⟩ := at_end hs
        obtain ⟨f, rfl⟩ : ∃ f, fuel = f + 1 := ⟨fuel - 1, by omega⟩
        exact ⟨s1, by simp only [run, h1, h2]⟩
      | succ m ih =>
        intro k s hk hs fuel hf
        obtain ⟨s1, h1, h2⟩ := at_step hs (by omega)
        obtain ⟨f, rfl⟩ : ∃ f, fuel = f + 1 := ⟨fuel - 1, by omega⟩
        obtain ⟨s', h'⟩ := ih (k + 1) s1 (by omega) h2 f (by omega)
        refine ⟨s', ?_⟩
        rw [run, h1]
        exact h'
    obtain ⟨s, hs⟩ := go 9 0 _ rfl st 99 (by omega)
    refine ⟨s, ?_⟩
    unfold doTracking
    rw [if_neg (by decide), if_neg (by decide), hs]
    rfl
  obtain ⟨s, hs⟩ := ret
  obtain ⟨k, e1, e2, past, next⟩ := snapshots_rounded short 0 100 hs
  have d : ieee 53 (short.tFinal / short.nDiag) = dtDiag (ieee 53) short := rfl
  rw [d] at e2 past next
  have n1 : ∀ k < 9, ieee 24 (tau (k + 1)) ≤ ieee 24 short.tFinal := by decide +kernel
  have n2 : ieee 24 short.tFinal < ieee 24 (tau 10) := by decide +kernel
  have n3 : ∀ k < 10, tau k < 91 / 100 * short.tFinal := by decide +kernel
  have k9 : k ≤ 9 := by
    by_contra hk
    have := past 10 (by omega) (by omega)
    rw [tau_ticks 10 le_rfl] at this
    exact absurd n2 (not_lt.mpr this)
  have k9' : 9 ≤ k := by
    by_contra hk
    rw [tau_ticks (k + 1) (by omega)] at next
    exact absurd next (not_lt.mpr (n1 k (by omega)))
  obtain rfl : k = 9 := by omega
  refine ⟨s, hs, e1, ?_⟩
  intro t ht
  rw [e2] at ht
  obtain ⟨j, hj, rfl⟩ := List.mem_map.mp ht
  have hj := List.mem_range.mp hj
  rw [tau_ticks j (by omega)]
  exact n3 j hj

/-- In exact arithmetic the same stage has its eleven snapshots. -/
example : (match doTracking id { short with f32 := id } 100 0 with
    | .returned s => s.snaps.length == 11
    | _ => false) = true := by decide +kernel

end WakeT.Tracker.Rounded
