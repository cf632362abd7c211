import Verif.Base.Tactics
import Mathlib.Data.Real.Basic

/-!
# `numpy.gradient`

Model of `np.gradient(f, h, edge_order=2)` for one axis with uniform spacing, as documented by
numpy: second-order central differences inside, second-order one-sided differences at the two
ends.  (External code; used by qs_cold_fluid_1x3p.py 218-219, 231, solver.py 130 and
utilities/other.py 76.)
-/

set_option linter.unusedSectionVars false

namespace WakeT.Base

variable {K : Type*} [Field K]

/-- `np.gradient(f, h, edge_order=2)[i]` for an array of length `n` (at least three). -/
def gradient (n : ℕ) (h : K) (f : ℕ → K) (i : ℕ) : K :=
  if i = 0 then (-3 * f 0 + 4 * f 1 - f 2) / (2 * h)
  else if i + 1 = n then (3 * f i - 4 * f (i - 1) + f (i - 2)) / (2 * h)
  else (f (i + 1) - f (i - 1)) / (2 * h)

/-- `np.gradient(f, h)[i]` (default `edge_order=1`) for an array of length `n` (at least two). -/
def gradient1 (n : ℕ) (h : K) (f : ℕ → K) (i : ℕ) : K :=
  if i = 0 then (f 1 - f 0) / h
  else if i + 1 = n then (f i - f (i - 1)) / h
  else (f (i + 1) - f (i - 1)) / (2 * h)

/-- The gradient is zero for constant data. -/
theorem gradient_const (n : ℕ) (h c : K) (i : ℕ) : gradient n h (fun _ => c) i = 0 := by
  have h1 : -3 * c + 4 * c - c = 0 := by ring
  have h2 : 3 * c - 4 * c + c = 0 := by ring
  unfold gradient
  simp only [h1, h2, sub_self, zero_div, ite_self]

/-- The gradient reads only the array. -/
theorem gradient_congr (n : ℕ) (h : K) (f g : ℕ → K) (hn : 3 ≤ n) (hfg : ∀ i < n, f i = g i) (i : ℕ)
    (hi : i < n) : gradient n h f i = gradient n h g i := by
  unfold gradient
  rw [hfg 0 (by omega), hfg 1 (by omega), hfg 2 (by omega), hfg i hi, hfg (i - 1) (by omega),
    hfg (i - 2) (by omega)]
  by_cases h0 : i = 0
  · rw [if_pos h0, if_pos h0]
  · by_cases h1 : i + 1 = n
    · rw [if_neg h0, if_neg h0, if_pos h1, if_pos h1]
    · rw [if_neg h0, if_neg h0, if_neg h1, if_neg h1, hfg (i + 1) (by omega)]

/-- The gradient is exact for quadratic data, also at the ends. -/
theorem gradient_quadratic [CharZero K] (n : ℕ) (h x0 a b c : K) (hh : h ≠ 0) (hn : 3 ≤ n) (i : ℕ)
    (hi : i < n) :
    gradient n h (fun j => a + b * (x0 + j * h) + c * (x0 + j * h) ^ 2) i =
      b + 2 * c * (x0 + i * h) := by
  have h2 : (2 : K) ≠ 0 := by norm_num
  unfold gradient
  by_cases h0 : i = 0
  · subst h0
    rw [if_pos rfl, div_eq_iff (mul_ne_zero h2 hh)]
    push_cast; ring
  · rw [if_neg h0]
    by_cases h1 : i + 1 = n
    · rw [if_pos h1, div_eq_iff (mul_ne_zero h2 hh)]
      obtain ⟨m, rfl⟩ : ∃ m, i = m + 2 := ⟨i - 2, by omega⟩
      rw [show m + 2 - 1 = m + 1 by omega, show m + 2 - 2 = m by omega]
      push_cast; ring
    · rw [if_neg h1, div_eq_iff (mul_ne_zero h2 hh)]
      obtain ⟨m, rfl⟩ : ∃ m, i = m + 1 := ⟨i - 1, by omega⟩
      rw [Nat.add_sub_cancel]
      push_cast; ring

end WakeT.Base
