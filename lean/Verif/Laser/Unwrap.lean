import Verif.Base.Tactics
import Mathlib.Algebra.Order.Floor.Ring
import Mathlib.Algebra.BigOperators.Group.Finset.Basic
import Mathlib.Data.Rat.Floor

/-! # Phase unwrapping (C49)

`wake_t/physics_models/laser/utils.py`. -/

set_option linter.unusedSectionVars false

namespace WakeT.Laser

variable {K : Type} [Field K] [LinearOrder K] [IsStrictOrderedRing K] [FloorRing K]

/-! ### Model -/

/-- `np.mod` for a positive modulus (laser/utils.py 35). -/
def fmod (x m : K) : K := x - m * ⌊x / m⌋

/-- `ddmod` for one difference, `ddmod = mod(dd - low, period) + low` with the ambiguous
boundary (utils.py 34-41). -/
def ddmod (period dd : K) : K :=
  let m := fmod (dd - -(period / 2)) period + -(period / 2)
  if m = -(period / 2) ∧ 0 < dd then period / 2 else m

/-- `ph_correct` for one difference (utils.py 42-54). -/
def phCorrect (period discont dd : K) : K := if |dd| < discont then 0 else ddmod period dd - dd

/-- One row of `unwrap` (utils.py 30-56) for default `axis`: entry `i`.  `discont` is half
of the period by default (23-24). -/
def unwrap (period : K) (discont : Option K) (p : ℕ → K) : ℕ → K
  | 0 => p 0
  | i + 1 => p (i + 1) + ∑ j ∈ Finset.range (i + 1),
      phCorrect period (discont.getD (period / 2)) (p (j + 1) - p j)

/-! ### Properties -/

theorem fmod_spec {period : K} (hp : 0 < period) (x : K) : 0 ≤ fmod x period ∧ fmod x period < period := by
  unfold fmod
  have h1 := Int.floor_le (x / period)
  have h2 := Int.lt_floor_add_one (x / period)
  rw [le_div_iff₀ hp] at h1
  rw [div_lt_iff₀ hp] at h2
  constructor <;> linarith

theorem ddmod_spec {period : K} (hp : 0 < period) (dd : K) :
    |ddmod period dd| ≤ period / 2 ∧ (∃ m : ℤ, ddmod period dd = dd + m * period) ∧
      (|dd| ≤ period / 2 → ddmod period dd = dd) := by
  have h := fmod_spec hp (dd - -(period / 2))
  have hm : ∃ m : ℤ, fmod (dd - -(period / 2)) period + -(period / 2) = dd + m * period := by
    refine ⟨-⌊(dd - -(period / 2)) / period⌋, ?_⟩
    unfold fmod
    push_cast
    ring
  have hid : |dd| ≤ period / 2 → dd ≠ period / 2 → fmod (dd - -(period / 2)) period + -(period / 2) = dd := by
    intro h1 h2
    have h3 := abs_le.mp h1
    have : ⌊(dd - -(period / 2)) / period⌋ = 0 := by
      rw [Int.floor_eq_zero_iff]
      refine ⟨div_nonneg (by linarith) hp.le, ?_⟩
      rw [div_lt_one hp]
      have := lt_of_le_of_ne h3.2 h2
      linarith
    unfold fmod
    rw [this]
    push_cast
    ring
  unfold ddmod
  dsimp only
  split_ifs with hb
  · refine ⟨by rw [abs_of_pos (by linarith)], ?_, ?_⟩
    · obtain ⟨m, hm⟩ := hm
      refine ⟨m + 1, ?_⟩
      have := hb.1
      push_cast
      linear_combination hm - this
    · intro h1
      by_contra h2
      have h3 := hid h1 (fun h => h2 h.symm)
      have := abs_le.mp h1
      have := hb.1
      have := hb.2
      linarith
  · refine ⟨abs_le.mpr ⟨by linarith [h.1], by linarith [h.2]⟩, hm, ?_⟩
    intro h1
    by_cases h2 : dd = period / 2
    · exfalso
      apply hb
      refine ⟨?_, by linarith⟩
      have : fmod (dd - -(period / 2)) period = 0 := by
        unfold fmod
        rw [h2, show (period / 2 - -(period / 2)) = period by ring, div_self hp.ne', Int.floor_one]
        simp
      rw [this, zero_add]
    · exact hid h1 h2

theorem unwrap_diff (period : K) (discont : Option K) (p : ℕ → K) (i : ℕ) :
    unwrap period discont p (i + 1) - unwrap period discont p i =
      (p (i + 1) - p i) + phCorrect period (discont.getD (period / 2)) (p (i + 1) - p i) := by
  rcases i with _ | i
  · simp [unwrap]
    ring
  · simp only [unwrap]
    rw [Finset.sum_range_succ _ (i + 1)]
    ring

theorem phCorrect_spec {period : K} (hp : 0 < period) (dd : K) :
    |dd + phCorrect period (period / 2) dd| ≤ period / 2 ∧
      (∃ m : ℤ, phCorrect period (period / 2) dd = m * period) ∧
      (|dd| ≤ period / 2 → phCorrect period (period / 2) dd = 0) := by
  obtain ⟨h1, ⟨m, h2⟩, h3⟩ := ddmod_spec hp dd
  unfold phCorrect
  split_ifs with h
  · exact ⟨by rw [add_zero]; exact h.le, ⟨0, by simp⟩, fun _ => rfl⟩
  · refine ⟨by rwa [add_sub_cancel], ⟨m, by rw [h2]; ring⟩, fun h4 => by rw [h3 h4, sub_self]⟩

/-- Unwrapping with the default settings keeps the first value, changes the others by
multiples of the period, leaves no jump larger than half a period, and changes nothing if
there is no such jump. -/
theorem unwrap_spec {period : K} (hp : 0 < period) (p : ℕ → K) :
    unwrap period none p 0 = p 0 ∧
    (∀ i, ∃ m : ℤ, unwrap period none p i = p i + m * period) ∧
    (∀ i, |unwrap period none p (i + 1) - unwrap period none p i| ≤ period / 2) ∧
    ((∀ i, |p (i + 1) - p i| ≤ period / 2) → ∀ i, unwrap period none p i = p i) := by
  refine ⟨rfl, ?_, ?_, ?_⟩
  · intro i
    induction i with
    | zero => exact ⟨0, by simp [unwrap]⟩
    | succ i ih =>
      obtain ⟨m, hm⟩ := ih
      obtain ⟨m', hm'⟩ := (phCorrect_spec hp (p (i + 1) - p i)).2.1
      have := unwrap_diff period none p i
      rw [Option.getD_none, hm'] at this
      exact ⟨m + m', by push_cast; linear_combination this + hm⟩
  · intro i
    rw [unwrap_diff, Option.getD_none]
    exact (phCorrect_spec hp _).1
  · intro h i
    induction i with
    | zero => rfl
    | succ i ih =>
      have := unwrap_diff period none p i
      rw [Option.getD_none, (phCorrect_spec hp _).2.2 (h i)] at this
      linear_combination this + ih

/-- The unwrapped phase is determined by this: a sequence that starts with the same value,
differs by multiples of the period, and has only jumps smaller than half a period, is
the result. -/
theorem unwrap_unique {period : K} (hp : 0 < period) (p q : ℕ → K) (h0 : q 0 = p 0)
    (hm : ∀ i, ∃ m : ℤ, q i = p i + m * period) (hj : ∀ i, |q (i + 1) - q i| < period / 2) (i : ℕ) :
    unwrap period none p i = q i := by
  obtain ⟨-, hu, hju, -⟩ := unwrap_spec hp p
  induction i with
  | zero => rw [h0]; rfl
  | succ i ih =>
    obtain ⟨m, hm⟩ := hm (i + 1)
    obtain ⟨m', hm'⟩ := hu (i + 1)
    have h1 := abs_lt.mp (hj i)
    have h2 := abs_le.mp (hju i)
    have h3 : ((m - m' : ℤ) : K) * period = q (i + 1) - unwrap period none p (i + 1) := by
      push_cast
      linear_combination hm' - hm
    have h4 : |((m - m' : ℤ) : K)| < 1 := by
      have : |((m - m' : ℤ) : K) * period| < period := by
        rw [h3, abs_lt]
        constructor <;> linarith
      rw [abs_mul, abs_of_pos hp] at this
      exact lt_of_mul_lt_mul_right (by linarith) hp.le
    have h5 : m - m' = 0 := by
      have : |m - m'| < 1 := by exact_mod_cast h4
      exact Int.abs_lt_one_iff.mp this
    rw [h5] at h3
    push_cast at h3
    linear_combination h3

/-- A phase that wraps: 0, 3, 6 → 0, 3, -4 with period 10. -/
example : unwrap (10 : ℚ) none (fun i => if i = 2 then -4 else 3 * i) 2 = 6 := by
  norm_num [unwrap, phCorrect, ddmod, fmod, Finset.sum_range_succ]

end WakeT.Laser
