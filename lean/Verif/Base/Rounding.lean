import Verif.Base.Tactics
import Mathlib.Data.Real.Basic

/-! # Floating point rounding with a bounded relative error -/

namespace WakeT.Base

/-- Every result is rounded with a relative error of at most `ε` (for numbers of 64 bits `ε = 2⁻⁵³`, unless they overflow or
underflow). -/
def Rounds (ε : ℝ) (rnd : ℝ → ℝ) : Prop := ∀ x, |rnd x - x| ≤ ε * |x|

variable {rnd : ℝ → ℝ} {ε : ℝ}

theorem Rounds.abs_le (hr : Rounds ε rnd) (x : ℝ) : |rnd x| ≤ (1 + ε) * |x| := by
  have h := hr x
  have := abs_sub_abs_le_abs_sub (rnd x) x
  linarith

theorem Rounds.near (hr : Rounds ε rnd) (h0 : 0 ≤ ε) {x y δ M : ℝ} (h : |x - y| ≤ δ) (hM : |y| ≤ M) : |rnd x - y| ≤ δ + ε * (M + δ) := by
  have h1 := hr x
  have h2 : |x| ≤ M + δ := by
    have := abs_sub_abs_le_abs_sub x y
    linarith
  have h3 := abs_sub_le (rnd x) x y
  have h4 := mul_le_mul_of_nonneg_left h2 h0
  linarith

theorem Rounds.nonneg (hr : Rounds ε rnd) (h1 : ε ≤ 1) {x : ℝ} (hx : 0 ≤ x) : 0 ≤ rnd x := by
  have := hr x
  rw [abs_of_nonneg hx, _root_.abs_le] at this
  nlinarith

theorem Rounds.zero (hr : Rounds ε rnd) : rnd 0 = 0 := by
  have := hr 0
  rw [abs_zero, mul_zero, sub_zero] at this
  exact abs_eq_zero.mp (le_antisymm this (abs_nonneg _))

/-- Exact arithmetic. -/
theorem rounds_id : Rounds 0 id := fun x => by simp

theorem mul_near {x y x' y' δ δ' M M' : ℝ} (h : |x - y| ≤ δ) (h' : |x' - y'| ≤ δ') (hM : |y| ≤ M) (hM' : |y'| ≤ M') :
    |x * x' - y * y'| ≤ δ * M' + M * δ' + δ * δ' := by
  have e : x * x' - y * y' = (x - y) * y' + y * (x' - y') + (x - y) * (x' - y') := by ring
  have d0 : 0 ≤ δ := (abs_nonneg _).trans h
  have m0 : 0 ≤ M := (abs_nonneg _).trans hM
  rw [e]
  refine (abs_add_le _ _).trans (add_le_add ((abs_add_le _ _).trans (add_le_add ?_ ?_)) ?_)
  · rw [abs_mul]; exact mul_le_mul h hM' (abs_nonneg _) d0
  · rw [abs_mul]; exact mul_le_mul hM h' (abs_nonneg _) m0
  · rw [abs_mul]; exact mul_le_mul h h' (abs_nonneg _) d0

end WakeT.Base
