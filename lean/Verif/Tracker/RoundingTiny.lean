import Verif.Base.Ieee
import Verif.Tracker.RoundingLoop

/-!
# Tiny steps at the end of a stage

The tracking loop with numbers of 64 bits and casts to numbers of 32 bits.  The last step of a bunch is cut at the final time.  If the start of
this step and the final time differ after the cast, but only by a few units of rounding before it, then the cut step is that tiny, and it is
repeated until the time of the bunch is, after the cast, beyond the final time.  Just below a power of two this never happens: the tiny step is
lost in rounding and the loop has no end.
-/

namespace WakeT.Tracker.Rounded

open WakeT.Base (ieee_exact ieee_eq ieee_tie)

/-- With exact times and a cast that separates all numbers, tracking with time steps of at least `δ` needs at most
`number of objects × ⌈t_final / δ⌉ + 1` iterations.  Missing: the same with the cast to numbers of 32 bits, which is false
(`tiny_steps_violated`, `never_ends_violated`). -/
theorem iterations_partial {K F σ : Type*} [Field K] [LinearOrder K] [IsStrictOrderedRing K] [LinearOrder F] [FloorSemiring K] (c : Cfg K F σ)
    (w : σ) {δ : K} (hδ : 0 < δ) (ht : 0 < c.tFinal) (hb : c.Bounded δ) (hm : StrictMono c.f32) (hn : 0 < c.nDiag) :
    ∃ s, doTracking id c (c.nObj * ⌈c.tFinal / δ⌉₊ + 1) w = .returned s := by
  rw [exact_tracking]
  exact tracking_terminates c w hδ ht hb hm hn

/-- The number `n` in units of `2 ^ e`. -/
noncomputable def num (e : ℤ) (n : ℤ) : ℝ := n * (2 : ℝ) ^ e

/-- A stage with one output and one bunch.  The time step of the bunch is shorter than the duration of the stage by two units of rounding. -/
noncomputable def hang (e : ℤ) : Cfg ℝ ℝ ℝ where
  tFinal := num e (2 ^ 52 + 2 ^ 28 + 1)
  nBunch := 1
  nField := 0
  nDiag := 1
  dtBunch := fun _ => some (num e (2 ^ 52 + 2 ^ 28 - 1))
  dtField := fun _ => 1
  autoDt := fun _ _ => num e (2 ^ 52 + 2 ^ 28 + 1)
  pushBeforeDiags := true
  opmd := false
  f32 := Base.ieee 24
  evolve := fun w _ _ dt => w + dt
  updateF := fun w _ => w

private theorem unit_pos (e : ℤ) : (0 : ℝ) < (2 : ℝ) ^ e := zpow_pos (by norm_num) _

private theorem num_add (e m n : ℤ) : num e m + num e n = num e (m + n) := by
  unfold num
  push_cast
  ring

private theorem num_sub (e m n : ℤ) : num e m - num e n = num e (m - n) := by
  unfold num
  push_cast
  ring

private theorem num_lt {e m n : ℤ} : num e m < num e n ↔ m < n := by
  unfold num
  rw [mul_lt_mul_iff_left₀ (unit_pos e)]
  exact_mod_cast Iff.rfl

private theorem num_f64 {e n : ℤ} (h : |n| < 2 ^ 53) : Base.ieee 53 (num e n) = num e n := ieee_exact h e

private theorem num_f32 {e n m : ℤ} (h1 : 2 ^ 52 ≤ n) (h2 : n < 2 ^ 53) (h : |n - m * 2 ^ 29| < 2 ^ 28) :
    Base.ieee 24 (num e n) = num e (m * 2 ^ 29) := by
  have u := unit_pos e
  have pw : ∀ k : ℕ, (2 : ℝ) ^ (e + k) = 2 ^ k * (2 : ℝ) ^ e := by
    intro k
    rw [zpow_add₀ (by norm_num), zpow_natCast, mul_comm]
  have e1 : (2 : ℝ) ^ (e + 52 + 1 - (24 : ℕ)) = 2 ^ 29 * (2 : ℝ) ^ e := by
    rw [show e + 52 + 1 - ((24 : ℕ) : ℤ) = e + (29 : ℕ) by push_cast; ring, pw]
  have n1 : ((2 : ℝ)) ^ 52 ≤ n := by exact_mod_cast h1
  have n2 : (n : ℝ) < 2 ^ 53 := by exact_mod_cast h2
  have n3 : |(n : ℝ) - m * 2 ^ 29| < 2 ^ 28 := by exact_mod_cast h
  have key := ieee_eq (p := 24) (x := num e n) (e := e + 52) (n := m) ?_ ?_ ?_
  · rw [key, e1]
    unfold num
    push_cast
    ring
  · rw [show e + 52 = e + (52 : ℕ) by norm_num, pw]
    exact mul_le_mul_of_nonneg_right n1 u.le
  · rw [show e + 52 + 1 = e + (53 : ℕ) by push_cast; ring, pw]
    exact mul_lt_mul_of_pos_right n2 u
  · rw [e1]
    unfold num
    rw [show (n : ℝ) * (2 : ℝ) ^ e - m * (2 ^ 29 * (2 : ℝ) ^ e) = (n - m * 2 ^ 29) * (2 : ℝ) ^ e by ring, abs_mul, abs_of_pos u]
    have := mul_lt_mul_of_pos_right n3 u
    refine this.trans_eq ?_
    ring

/-- After the cut. -/
private structure Tiny (e : ℤ) (k : ℕ) (s : St ℝ ℝ) : Prop where
  t0 : s.t 0 = num e (2 ^ 52 + 2 ^ 28 - 1 + 2 * k)
  t1 : s.t 1 = 0
  dt0 : s.dt 0 = num e 2
  dt1 : s.dt 1 = num e (2 ^ 52 + 2 ^ 28 + 1)

private theorem f32_end (e : ℤ) : (hang e).f32 (hang e).tFinal = num e ((2 ^ 23 + 1) * 2 ^ 29) :=
  num_f32 (by norm_num) (by norm_num) (by norm_num)

private theorem one_pos' {f : ℕ → ℝ} (h : ¬ f 1 < f 0) : argmin f 1 = 0 := if_neg h

private theorem tiny_step {e : ℤ} {k : ℕ} (hk : k < 2 ^ 28) {s : St ℝ ℝ} (h : Tiny e k s) :
    ∃ s', step (Base.ieee 53) (hang e) s = some s' ∧ Tiny e (k + 1) s' := by
  have hk' : (k : ℤ) < 2 ^ 28 := by exact_mod_cast hk
  have k0 : (0 : ℤ) ≤ k := by positivity
  have nx : Base.ieee 53 (s.t 0 + s.dt 0) = num e (2 ^ 52 + 2 ^ 28 - 1 + 2 * (k + 1)) := by
    rw [h.t0, h.dt0, num_add, num_f64 (by rw [abs_of_nonneg (by linarith)]; linarith)]
    congr 1
  have nd : Base.ieee 53 (s.t 1 + s.dt 1) = num e (2 ^ 52 + 2 ^ 28 + 1) := by
    rw [h.t1, h.dt1, zero_add, num_f64 (by norm_num)]
  have f0 : Base.ieee 24 (num e (2 ^ 52 + 2 ^ 28 - 1 + 2 * (k + 1))) = num e ((2 ^ 23 + 1) * 2 ^ 29) :=
    num_f32 (by linarith) (by linarith) (by rw [abs_lt]; constructor <;> linarith)
  have f1 : Base.ieee 24 (num e (2 ^ 52 + 2 ^ 28 + 1)) = num e ((2 ^ 23 + 1) * 2 ^ 29) := f32_end e
  have ha : argmin (fun i => (hang e).f32 (Base.ieee 53 (s.t i + s.dt i))) ((hang e).nObj - 1) = 0 := by
    refine one_pos' (f := fun i => Base.ieee 24 (Base.ieee 53 (s.t i + s.dt i))) ?_
    show ¬ Base.ieee 24 (Base.ieee 53 (s.t 1 + s.dt 1)) < Base.ieee 24 (Base.ieee 53 (s.t 0 + s.dt 0))
    rw [nx, nd, f0, f1]
    exact lt_irrefl _
  refine ⟨advance (Base.ieee 53) (hang e) s 0, ?_, ?_⟩
  · simp only [step, ha]
    rw [if_neg]
    rw [f32_end, nx]
    show ¬ Base.ieee 24 _ > _
    rw [f0]
    exact lt_irrefl _
  · have dt : (advance (Base.ieee 53) (hang e) s 0).dt = s.dt := by
      refine if_neg fun h => h.1 ?_
      show Base.ieee 24 (Base.ieee 53 (s.t 0 + s.dt 0)) = Base.ieee 24 (num e (2 ^ 52 + 2 ^ 28 + 1))
      rw [nx, f0, f1]
    have t : (advance (Base.ieee 53) (hang e) s 0).t = Function.update s.t 0 (Base.ieee 53 (s.t 0 + s.dt 0)) := rfl
    refine ⟨?_, ?_, ?_, ?_⟩
    · rw [t, Function.update_self, nx]
      push_cast
      rfl
    · rw [t, Function.update_of_ne (by decide), h.t1]
    · rw [dt, h.dt0]
    · rw [dt, h.dt1]

private theorem first_step (e : ℤ) : ∃ s', step (Base.ieee 53) (hang e) (start (Base.ieee 53) (hang e) 0) = some s' ∧ Tiny e 0 s' := by
  obtain ⟨s, hs⟩ : ∃ s, s = start (Base.ieee 53) (hang e) 0 := ⟨_, rfl⟩
  rw [← hs]
  have t0 : s.t 0 = 0 := by rw [hs]; rfl
  have t1 : s.t 1 = 0 := by rw [hs]; rfl
  have d0 : s.dt 0 = num e (2 ^ 52 + 2 ^ 28 - 1) := by rw [hs]; rfl
  have d1 : s.dt 1 = num e (2 ^ 52 + 2 ^ 28 + 1) := by
    have : s.dt 1 = Base.ieee 53 (num e (2 ^ 52 + 2 ^ 28 + 1) / ((1 : ℕ) : ℝ)) := by rw [hs]; rfl
    rw [this, Nat.cast_one, div_one, num_f64 (by norm_num)]
  have nx : Base.ieee 53 (s.t 0 + s.dt 0) = num e (2 ^ 52 + 2 ^ 28 - 1) := by
    rw [t0, d0, zero_add, num_f64 (by norm_num)]
  have nd : Base.ieee 53 (s.t 1 + s.dt 1) = num e (2 ^ 52 + 2 ^ 28 + 1) := by
    rw [t1, d1, zero_add, num_f64 (by norm_num)]
  have f0 : Base.ieee 24 (num e (2 ^ 52 + 2 ^ 28 - 1)) = num e (2 ^ 23 * 2 ^ 29) := num_f32 (by norm_num) (by norm_num) (by norm_num)
  have f1 : Base.ieee 24 (num e (2 ^ 52 + 2 ^ 28 + 1)) = num e ((2 ^ 23 + 1) * 2 ^ 29) := f32_end e
  have ha : argmin (fun i => (hang e).f32 (Base.ieee 53 (s.t i + s.dt i))) ((hang e).nObj - 1) = 0 := by
    refine one_pos' (f := fun i => Base.ieee 24 (Base.ieee 53 (s.t i + s.dt i))) ?_
    show ¬ Base.ieee 24 (Base.ieee 53 (s.t 1 + s.dt 1)) < Base.ieee 24 (Base.ieee 53 (s.t 0 + s.dt 0))
    rw [nx, nd, f0, f1, num_lt]
    norm_num
  refine ⟨advance (Base.ieee 53) (hang e) s 0, ?_, ?_⟩
  · simp only [step, ha]
    rw [if_neg]
    rw [f32_end, nx]
    show ¬ Base.ieee 24 _ > _
    rw [f0, gt_iff_lt, num_lt]
    norm_num
  · have big : Base.ieee 53 (num e (2 ^ 52 + 2 ^ 28 - 1) + num e (2 ^ 52 + 2 ^ 28 - 1)) > num e (2 ^ 52 + 2 ^ 28 + 1) := by
      have e2 : num e (2 ^ 52 + 2 ^ 28 - 1) + num e (2 ^ 52 + 2 ^ 28 - 1) = num (e + 1) (2 ^ 52 + 2 ^ 28 - 1) := by
        unfold num
        rw [zpow_add_one₀ (by norm_num)]
        ring
      rw [e2, num_f64 (by norm_num), ← e2, num_add, gt_iff_lt, num_lt]
      norm_num
    have dt : (advance (Base.ieee 53) (hang e) s 0).dt = Function.update s.dt 0 (num e 2) := by
      refine (if_pos ⟨?_, ?_⟩).trans ?_
      rotate_left
      · show ¬ Base.ieee 24 (Base.ieee 53 (s.t 0 + s.dt 0)) = Base.ieee 24 (num e (2 ^ 52 + 2 ^ 28 + 1))
        rw [nx, f0, f1]
        exact ne_of_lt (num_lt.mpr (by norm_num))
      · show Base.ieee 53 (Base.ieee 53 (s.t 0 + s.dt 0) + s.dt 0) > num e (2 ^ 52 + 2 ^ 28 + 1)
        rw [nx, d0]
        exact big
      · show Function.update s.dt 0 (Base.ieee 53 (num e (2 ^ 52 + 2 ^ 28 + 1) - Base.ieee 53 (s.t 0 + s.dt 0))) = _
        rw [nx, num_sub, show (2 ^ 52 + 2 ^ 28 + 1 : ℤ) - (2 ^ 52 + 2 ^ 28 - 1) = 2 by norm_num, num_f64 (by norm_num)]
    have t : (advance (Base.ieee 53) (hang e) s 0).t = Function.update s.t 0 (Base.ieee 53 (s.t 0 + s.dt 0)) := rfl
    refine ⟨?_, ?_, ?_, ?_⟩
    · rw [t, Function.update_self, nx]
      norm_num
    · rw [t, Function.update_of_ne (by decide), t1]
    · rw [dt, Function.update_self]
    · rw [dt, Function.update_of_ne (by decide), d1]

/-- The time step of the bunch is more than half of the duration of the stage, there is one output, and the loop has not ended after 2²⁸
iterations, whatever the unit of time. -/
theorem tiny_steps_violated (e : ℤ) : (hang e).tFinal < 2 * num e (2 ^ 52 + 2 ^ 28 - 1) ∧ (hang e).Bounded (num e (2 ^ 52 + 2 ^ 28 - 1)) ∧
    ∀ fuel ≤ 2 ^ 28, doTracking (Base.ieee 53) (hang e) fuel 0 = .running := by
  refine ⟨?_, ⟨?_, ?_, ?_, ?_⟩, ?_⟩
  · show num e (2 ^ 52 + 2 ^ 28 + 1) < _
    rw [two_mul, num_add, num_lt]
    norm_num
  · intro i _ d hd
    exact (Option.some.inj hd).le
  · intro _ _
    exact (num_lt.mpr (by norm_num)).le
  · intro j hj
    exact absurd hj (Nat.not_lt_zero j)
  · intro _
    show _ ≤ num e (2 ^ 52 + 2 ^ 28 + 1) / ((1 : ℕ) : ℝ)
    rw [Nat.cast_one, div_one]
    exact (num_lt.mpr (by norm_num)).le
  · have go : ∀ (f k : ℕ) (s : St ℝ ℝ), Tiny e k s → f + k ≤ 2 ^ 28 → run (Base.ieee 53) (hang e) f s = none := by
      intro f
      induction f with
      | zero => intro k s _ _; rfl
      | succ f ih =>
        intro k s h hf
        obtain ⟨s', h1, h2⟩ := tiny_step (show k < 2 ^ 28 by omega) h
        rw [run, h1]
        exact ih (k + 1) s' h2 (by omega)
    have r : ∀ fuel ≤ 2 ^ 28, run (Base.ieee 53) (hang e) fuel (start (Base.ieee 53) (hang e) 0) = none := by
      intro fuel hf
      cases fuel with
      | zero => rfl
      | succ f =>
        obtain ⟨s', h1, h2⟩ := first_step e
        rw [run, h1]
        exact go f 0 s' h2 (by omega)
    intro fuel hf
    unfold doTracking
    rw [if_neg (by simp [hang]), if_neg (by simp [hang, Cfg.nObj]), r fuel hf]

/-! ### A loop without end -/

/-- The same with a final time just below a power of two, in the middle between two numbers of 32 bits, and a time step that is shorter by one
unit of rounding. -/
noncomputable def stuck (e : ℤ) : Cfg ℝ ℝ ℝ where
  tFinal := num e (2 ^ 53 - 2 ^ 28)
  nBunch := 1
  nField := 0
  nDiag := 1
  dtBunch := fun _ => some (num e (2 ^ 53 - 2 ^ 28 - 1))
  dtField := fun _ => 1
  autoDt := fun _ _ => num e (2 ^ 53 - 2 ^ 28)
  pushBeforeDiags := true
  opmd := false
  f32 := Base.ieee 24
  evolve := fun w _ _ dt => w + dt
  updateF := fun w _ => w

private theorem pw (e : ℤ) (k : ℕ) : (2 : ℝ) ^ (e + k) = 2 ^ k * (2 : ℝ) ^ e := by
  rw [zpow_add₀ (by norm_num), zpow_natCast, mul_comm]

/-- The final time goes up to the power of two. -/
private theorem f32_tie (e : ℤ) : Base.ieee 24 (num e (2 ^ 53 - 2 ^ 28)) = num e (2 ^ 53) := by
  have u := unit_pos e
  have e1 : (2 : ℝ) ^ (e + 52 + 1 - (24 : ℕ)) = 2 ^ 29 * (2 : ℝ) ^ e := by
    rw [show e + 52 + 1 - ((24 : ℕ) : ℤ) = e + (29 : ℕ) by push_cast; ring, pw]
  have x : num e (2 ^ 53 - 2 ^ 28) = (((2 ^ 24 - 1 : ℤ) : ℝ) + 1 / 2) * (2 : ℝ) ^ (e + 52 + 1 - (24 : ℕ)) := by
    rw [e1]
    unfold num
    push_cast
    ring
  have v : (((2 ^ 24 - 1 : ℤ) : ℝ) + 1 / 2) * (2 : ℝ) ^ (e + 52 + 1 - (24 : ℕ)) = (2 ^ 53 - 2 ^ 28) * (2 : ℝ) ^ e := by
    rw [e1]
    push_cast
    ring
  rw [x, ieee_tie (p := 24) (e := e + 52) (n := 2 ^ 24 - 1), e1, if_neg (by norm_num)]
  · unfold num
    push_cast
    ring
  · rw [v, show e + 52 = e + (52 : ℕ) by norm_num, pw]
    exact mul_le_mul_of_nonneg_right (by norm_num) u.le
  · rw [v, show e + 52 + 1 = e + (53 : ℕ) by push_cast; ring, pw]
    exact mul_lt_mul_of_pos_right (by norm_num) u

private theorem f32_power (e : ℤ) : Base.ieee 24 (num e (2 ^ 53)) = num e (2 ^ 53) := by
  have h : num e (2 ^ 53) = ((1 : ℤ) : ℝ) * (2 : ℝ) ^ (e + (53 : ℕ)) := by
    rw [pw]
    unfold num
    push_cast
    ring
  rw [h]
  exact ieee_exact (by norm_num) _

private theorem f64_power (e : ℤ) : Base.ieee 53 (num e (2 ^ 53)) = num e (2 ^ 53) := by
  have h : num e (2 ^ 53) = ((1 : ℤ) : ℝ) * (2 : ℝ) ^ (e + (53 : ℕ)) := by
    rw [pw]
    unfold num
    push_cast
    ring
  rw [h]
  exact ieee_exact (by norm_num) _

/-- Adding one unit to the power of two does not change it. -/
private theorem f64_tie (e : ℤ) : Base.ieee 53 (num e (2 ^ 53 + 1)) = num e (2 ^ 53) := by
  have u := unit_pos e
  have e1 : (2 : ℝ) ^ (e + 53 + 1 - (53 : ℕ)) = 2 ^ 1 * (2 : ℝ) ^ e := by
    rw [show e + 53 + 1 - ((53 : ℕ) : ℤ) = e + (1 : ℕ) by push_cast; ring, pw]
  have x : num e (2 ^ 53 + 1) = (((2 ^ 52 : ℤ) : ℝ) + 1 / 2) * (2 : ℝ) ^ (e + 53 + 1 - (53 : ℕ)) := by
    rw [e1]
    unfold num
    push_cast
    ring
  have v : (((2 ^ 52 : ℤ) : ℝ) + 1 / 2) * (2 : ℝ) ^ (e + 53 + 1 - (53 : ℕ)) = (2 ^ 53 + 1) * (2 : ℝ) ^ e := by
    rw [e1]
    push_cast
    ring
  rw [x, ieee_tie (p := 53) (e := e + 53) (n := 2 ^ 52), e1, if_pos (by norm_num)]
  · unfold num
    push_cast
    ring
  · rw [v, show e + 53 = e + (53 : ℕ) by norm_num, pw]
    exact mul_le_mul_of_nonneg_right (by norm_num) u.le
  · rw [v, show e + 53 + 1 = e + (54 : ℕ) by push_cast; ring, pw]
    exact mul_lt_mul_of_pos_right (by norm_num) u

private theorem f32_near {e n : ℤ} (h1 : 2 ^ 53 - 2 ^ 28 ≤ n) (h2 : n ≤ 2 ^ 53) : Base.ieee 24 (num e n) = num e (2 ^ 53) := by
  have mono := Base.ieee_mono (p := 24) (by norm_num)
  have le : ∀ {a b : ℤ}, a ≤ b → num e a ≤ num e b := fun {a b} h => not_lt.mp fun hh => absurd (num_lt.mp hh) (not_lt.mpr h)
  refine le_antisymm ?_ ?_
  · rw [← f32_power e]
    exact mono (le h2)
  · rw [← f32_tie e]
    exact mono (le h1)

private structure Stuck (e : ℤ) (s : St ℝ ℝ) : Prop where
  t0 : ∃ n : ℤ, 2 ^ 53 - 2 ^ 28 - 1 ≤ n ∧ n ≤ 2 ^ 53 ∧ s.t 0 = num e n
  t1 : s.t 1 = 0
  dt0 : s.dt 0 = num e 1
  dt1 : s.dt 1 = num e (2 ^ 53 - 2 ^ 28)

private theorem stuck_step {e : ℤ} {s : St ℝ ℝ} (h : Stuck e s) : ∃ s', step (Base.ieee 53) (stuck e) s = some s' ∧ Stuck e s' := by
  obtain ⟨n, n1, n2, hn⟩ := h.t0
  obtain ⟨m, m1, m2, nx⟩ : ∃ m : ℤ, 2 ^ 53 - 2 ^ 28 ≤ m ∧ m ≤ 2 ^ 53 ∧ Base.ieee 53 (s.t 0 + s.dt 0) = num e m := by
    rw [hn, h.dt0, num_add]
    rcases n2.lt_or_eq with n3 | rfl
    · rcases (show n + 1 ≤ 2 ^ 53 by omega).lt_or_eq with n4 | n4
      · exact ⟨n + 1, by linarith, n4.le, num_f64 (by rw [abs_of_nonneg (by linarith)]; exact n4)⟩
      · exact ⟨n + 1, by linarith, n4.le, by rw [n4, f64_power]⟩
    · exact ⟨2 ^ 53, by norm_num, le_rfl, f64_tie e⟩
  have nd : Base.ieee 53 (s.t 1 + s.dt 1) = num e (2 ^ 53 - 2 ^ 28) := by
    rw [h.t1, h.dt1, zero_add, num_f64 (by norm_num)]
  have f0 := f32_near (e := e) m1 m2
  have f1 := f32_tie e
  have ha : argmin (fun i => (stuck e).f32 (Base.ieee 53 (s.t i + s.dt i))) ((stuck e).nObj - 1) = 0 := by
    refine one_pos' (f := fun i => Base.ieee 24 (Base.ieee 53 (s.t i + s.dt i))) ?_
    show ¬ Base.ieee 24 (Base.ieee 53 (s.t 1 + s.dt 1)) < Base.ieee 24 (Base.ieee 53 (s.t 0 + s.dt 0))
    rw [nx, nd, f0, f1]
    exact lt_irrefl _
  refine ⟨advance (Base.ieee 53) (stuck e) s 0, ?_, ?_⟩
  · simp only [step, ha]
    rw [if_neg]
    show ¬ Base.ieee 24 _ > Base.ieee 24 (num e (2 ^ 53 - 2 ^ 28))
    rw [nx, f0, f1]
    exact lt_irrefl _
  · have dt : (advance (Base.ieee 53) (stuck e) s 0).dt = s.dt := by
      refine if_neg fun h => h.1 ?_
      show Base.ieee 24 (Base.ieee 53 (s.t 0 + s.dt 0)) = Base.ieee 24 (num e (2 ^ 53 - 2 ^ 28))
      rw [nx, f0, f1]
    have t : (advance (Base.ieee 53) (stuck e) s 0).t = Function.update s.t 0 (Base.ieee 53 (s.t 0 + s.dt 0)) := rfl
    refine ⟨⟨m, by linarith, m2, ?_⟩, ?_, ?_, ?_⟩
    · rw [t, Function.update_self, nx]
    · rw [t, Function.update_of_ne (by decide), h.t1]
    · rw [dt, h.dt0]
    · rw [dt, h.dt1]

private theorem stuck_first (e : ℤ) : ∃ s', step (Base.ieee 53) (stuck e) (start (Base.ieee 53) (stuck e) 0) = some s' ∧ Stuck e s' := by
  obtain ⟨s, hs⟩ : ∃ s, s = start (Base.ieee 53) (stuck e) 0 := ⟨_, rfl⟩
  rw [← hs]
  have t0 : s.t 0 = 0 := by rw [hs]; rfl
  have t1 : s.t 1 = 0 := by rw [hs]; rfl
  have d0 : s.dt 0 = num e (2 ^ 53 - 2 ^ 28 - 1) := by rw [hs]; rfl
  have d1 : s.dt 1 = num e (2 ^ 53 - 2 ^ 28) := by
    have : s.dt 1 = Base.ieee 53 (num e (2 ^ 53 - 2 ^ 28) / ((1 : ℕ) : ℝ)) := by rw [hs]; rfl
    rw [this, Nat.cast_one, div_one, num_f64 (by norm_num)]
  have nx : Base.ieee 53 (s.t 0 + s.dt 0) = num e (2 ^ 53 - 2 ^ 28 - 1) := by
    rw [t0, d0, zero_add, num_f64 (by norm_num)]
  have nd : Base.ieee 53 (s.t 1 + s.dt 1) = num e (2 ^ 53 - 2 ^ 28) := by
    rw [t1, d1, zero_add, num_f64 (by norm_num)]
  have f0 : Base.ieee 24 (num e (2 ^ 53 - 2 ^ 28 - 1)) = num e ((2 ^ 24 - 1) * 2 ^ 29) := num_f32 (by norm_num) (by norm_num) (by norm_num)
  have f1 := f32_tie e
  have ha : argmin (fun i => (stuck e).f32 (Base.ieee 53 (s.t i + s.dt i))) ((stuck e).nObj - 1) = 0 := by
    refine one_pos' (f := fun i => Base.ieee 24 (Base.ieee 53 (s.t i + s.dt i))) ?_
    show ¬ Base.ieee 24 (Base.ieee 53 (s.t 1 + s.dt 1)) < Base.ieee 24 (Base.ieee 53 (s.t 0 + s.dt 0))
    rw [nx, nd, f0, f1, num_lt]
    norm_num
  refine ⟨advance (Base.ieee 53) (stuck e) s 0, ?_, ?_⟩
  · simp only [step, ha]
    rw [if_neg]
    show ¬ Base.ieee 24 _ > Base.ieee 24 (num e (2 ^ 53 - 2 ^ 28))
    rw [nx, f0, f1, gt_iff_lt, num_lt]
    norm_num
  · have big : Base.ieee 53 (num e (2 ^ 53 - 2 ^ 28 - 1) + num e (2 ^ 53 - 2 ^ 28 - 1)) > num e (2 ^ 53 - 2 ^ 28) := by
      have e2 : num e (2 ^ 53 - 2 ^ 28 - 1) + num e (2 ^ 53 - 2 ^ 28 - 1) = num (e + 1) (2 ^ 53 - 2 ^ 28 - 1) := by
        unfold num
        rw [zpow_add_one₀ (by norm_num)]
        ring
      rw [e2, num_f64 (by norm_num), ← e2, num_add, gt_iff_lt, num_lt]
      norm_num
    have dt : (advance (Base.ieee 53) (stuck e) s 0).dt = Function.update s.dt 0 (num e 1) := by
      refine (if_pos ⟨?_, ?_⟩).trans ?_
      rotate_left
      · show ¬ Base.ieee 24 (Base.ieee 53 (s.t 0 + s.dt 0)) = Base.ieee 24 (num e (2 ^ 53 - 2 ^ 28))
        rw [nx, f0, f1]
        exact ne_of_lt (num_lt.mpr (by norm_num))
      · show Base.ieee 53 (Base.ieee 53 (s.t 0 + s.dt 0) + s.dt 0) > num e (2 ^ 53 - 2 ^ 28)
        rw [nx, d0]
        exact big
      · show Function.update s.dt 0 (Base.ieee 53 (num e (2 ^ 53 - 2 ^ 28) - Base.ieee 53 (s.t 0 + s.dt 0))) = _
        rw [nx, num_sub, show (2 ^ 53 - 2 ^ 28 : ℤ) - (2 ^ 53 - 2 ^ 28 - 1) = 1 by norm_num, num_f64 (by norm_num)]
    have t : (advance (Base.ieee 53) (stuck e) s 0).t = Function.update s.t 0 (Base.ieee 53 (s.t 0 + s.dt 0)) := rfl
    refine ⟨⟨2 ^ 53 - 2 ^ 28 - 1, le_rfl, by norm_num, ?_⟩, ?_, ?_, ?_⟩
    · rw [t, Function.update_self, nx]
    · rw [t, Function.update_of_ne (by decide), t1]
    · rw [dt, Function.update_self]
    · rw [dt, Function.update_of_ne (by decide), d1]

/-- Tracking never ends, whatever the unit of time: when the time of the bunch has reached the power of two, the tiny step is lost in rounding
and the bunch is pushed again and again. -/
theorem never_ends_violated (e : ℤ) : (stuck e).tFinal < 2 * num e (2 ^ 53 - 2 ^ 28 - 1) ∧ (stuck e).Bounded (num e (2 ^ 53 - 2 ^ 28 - 1)) ∧
    ∀ fuel, doTracking (Base.ieee 53) (stuck e) fuel 0 = .running := by
  refine ⟨?_, ⟨?_, ?_, ?_, ?_⟩, ?_⟩
  · show num e (2 ^ 53 - 2 ^ 28) < _
    rw [two_mul, num_add, num_lt]
    norm_num
  · intro i _ d hd
    exact (Option.some.inj hd).le
  · intro _ _
    exact (num_lt.mpr (by norm_num)).le
  · intro j hj
    exact absurd hj (Nat.not_lt_zero j)
  · intro _
    show _ ≤ num e (2 ^ 53 - 2 ^ 28) / ((1 : ℕ) : ℝ)
    rw [Nat.cast_one, div_one]
    exact (num_lt.mpr (by norm_num)).le
  · have go : ∀ (f : ℕ) (s : St ℝ ℝ), Stuck e s → run (Base.ieee 53) (stuck e) f s = none := by
      intro f
      induction f with
      | zero => intro s _; rfl
      | succ f ih =>
        intro s h
        obtain ⟨s', h1, h2⟩ := stuck_step h
        rw [run, h1]
        exact ih s' h2
    have r : ∀ fuel, run (Base.ieee 53) (stuck e) fuel (start (Base.ieee 53) (stuck e) 0) = none := by
      intro fuel
      cases fuel with
      | zero => rfl
      | succ f =>
        obtain ⟨s', h1, h2⟩ := stuck_first e
        rw [run, h1]
        exact go f s' h2
    intro fuel
    unfold doTracking
    rw [if_neg (by simp [stuck]), if_neg (by simp [stuck, Cfg.nObj]), r fuel]

end WakeT.Tracker.Rounded
