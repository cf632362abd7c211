import Verif.Base.Gradient

/-! # `radial_gradient` (C72)

File: `wake_t/utilities/other.py`, lines 58-76. -/

set_option linter.unusedSectionVars false

namespace WakeT.Util

open WakeT.Base

variable {K : Type*} [Field K] [CharZero K]

/-- The row `np.concatenate((fld[:, ::-1], fld), axis=1)` (other.py 75) for a row of `n`
values. -/
def mirrored (n : ℕ) (f : ℕ → K) (j : ℕ) : K := if j < n then f (n - 1 - j) else f (j - n)

/-- One row of `radial_gradient(fld, dr)` (other.py 58-76). -/
def radialGradient (n : ℕ) (dr : K) (f : ℕ → K) (j : ℕ) : K :=
  gradient1 (2 * n) dr (mirrored n f) (n + j)

/-- What is computed at the nodes, away from the model's mirrored array. -/
theorem radialGradient_eq (n : ℕ) (dr : K) (f : ℕ → K) (j : ℕ) (hj : j < n) :
    radialGradient n dr f j =
      if j + 1 = n then (f j - (if j = 0 then f 0 else f (j - 1))) / dr
      else (f (j + 1) - (if j = 0 then f 0 else f (j - 1))) / (2 * dr) := by
  unfold radialGradient gradient1
  have h0 : ¬ n + j = 0 := by omega
  have e1 : mirrored n f (n + j) = f j := by
    unfold mirrored
    have h : ¬ n + j < n := by omega
    rw [if_neg h, Nat.add_sub_cancel_left]
  have e2 : mirrored n f (n + j - 1) = if j = 0 then f 0 else f (j - 1) := by
    unfold mirrored
    by_cases h : j = 0
    · subst h
      have h' : n + 0 - 1 < n := by omega
      rw [if_pos h', if_pos rfl, show n - 1 - (n + 0 - 1) = 0 by omega]
    · have h' : ¬ n + j - 1 < n := by omega
      rw [if_neg h', if_neg h, show n + j - 1 - n = j - 1 by omega]
  have e3 : mirrored n f (n + j + 1) = f (j + 1) := by
    unfold mirrored
    have h : ¬ n + j + 1 < n := by omega
    rw [if_neg h, show n + j + 1 - n = j + 1 by omega]
  rw [if_neg h0, e1, e2, e3]
  by_cases h : j + 1 = n
  · have h' : n + j + 1 = 2 * n := by omega
    rw [if_pos h', if_pos h]
  · have h' : ¬ n + j + 1 = 2 * n := by omega
    rw [if_neg h', if_neg h]

/-- **C72.** On the nodes `r_j = (j + 1/2) dr` the radial gradient of `a + b r ^ 2` is `2 b r`,
except at the outermost node, where it is the derivative half a cell further inside. -/
theorem radial_exact (n : ℕ) (hn : 2 ≤ n) (dr a b : K) (hdr : dr ≠ 0) (j : ℕ) (hj : j < n) :
    let r := fun i : ℕ => ((i : K) + 1 / 2) * dr
    radialGradient n dr (fun i => a + b * r i ^ 2) j =
      if j + 1 = n then 2 * b * (r j - dr / 2) else 2 * b * r j := by
  intro r
  rw [radialGradient_eq n dr _ j hj]
  have h2 : (2 : K) ≠ 0 := by norm_num
  by_cases h : j + 1 = n
  · rw [if_pos h, if_pos h]
    have h0 : ¬ j = 0 := by omega
    obtain ⟨m, rfl⟩ : ∃ m, j = m + 1 := ⟨j - 1, by omega⟩
    rw [if_neg h0, div_eq_iff hdr, Nat.add_sub_cancel]
    simp only [r]
    push_cast; field_simp; ring
  · rw [if_neg h, if_neg h]
    rw [div_eq_iff (mul_ne_zero h2 hdr)]
    by_cases h0 : j = 0
    · subst h0
      rw [if_pos rfl]
      simp only [r]
      push_cast; field_simp; ring
    · obtain ⟨m, rfl⟩ : ∃ m, j = m + 1 := ⟨j - 1, by omega⟩
      rw [if_neg h0, Nat.add_sub_cancel]
      simp only [r]
      push_cast; field_simp; ring

/-- **C72** (linearity). -/
theorem radial_linear (n : ℕ) (dr c d : K) (f g : ℕ → K) (j : ℕ) (hj : j < n) :
    radialGradient n dr (fun i => c * f i + d * g i) j =
      c * radialGradient n dr f j + d * radialGradient n dr g j := by
  rw [radialGradient_eq n dr _ j hj, radialGradient_eq n dr _ j hj, radialGradient_eq n dr _ j hj]
  split_ifs <;> ring

/-- **C72** (no boundary condition on the field values outside the array). -/
theorem radial_congr (n : ℕ) (dr : K) (f g : ℕ → K) (hfg : ∀ i < n, f i = g i) (j : ℕ) (hj : j < n) :
    radialGradient n dr f j = radialGradient n dr g j := by
  rw [radialGradient_eq n dr _ j hj, radialGradient_eq n dr _ j hj, hfg j hj, hfg 0 (by omega),
    hfg (j - 1) (by omega)]
  by_cases h : j + 1 = n
  · rw [if_pos h, if_pos h]
  · rw [if_neg h, if_neg h, hfg (j + 1) (by omega)]

/-- Three nodes with spacing 2 and the profile `5 + 3 r ^ 2`. -/
example : radialGradient 3 (2 : ℚ) (fun i => 5 + 3 * (((i : ℚ) + 1 / 2) * 2) ^ 2) 0 = 6 ∧
    radialGradient 3 (2 : ℚ) (fun i => 5 + 3 * (((i : ℚ) + 1 / 2) * 2) ^ 2) 2 = 24 := by
  decide +kernel

end WakeT.Util
