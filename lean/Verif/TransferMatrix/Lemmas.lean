import Verif.TransferMatrix.Model
import Verif.Base.Tactics

/-! # The focusing functions -/

set_option linter.unusedSectionVars false

namespace WakeT.TransferMatrix

theorem csqrt_sq (k : ℝ) : csqrt k ^ 2 = (k : ℂ) := by
  unfold csqrt
  split_ifs with h
  · rw [← Complex.ofReal_pow, Real.sq_sqrt h]
  · rw [mul_pow, Complex.I_sq, ← Complex.ofReal_pow, Real.sq_sqrt (by linarith)]
    push_cast; ring

theorem csqrt_eq_zero (k : ℝ) : csqrt k = 0 ↔ k = 0 := by
  constructor
  · intro h
    have := csqrt_sq k
    rw [h] at this
    exact_mod_cast (by simpa using this.symm : (k : ℂ) = 0)
  · rintro rfl
    simp [csqrt]

theorem csqrt_ne_zero (k : ℝ) : csqrt k ≠ 0 ↔ k ≠ 0 := not_congr (csqrt_eq_zero k)

theorem cosK_complex (k z : ℝ) : (cosK k z : ℂ) = Complex.cos (z * csqrt k) := by
  unfold cosK csqrt
  split_ifs
  · rw [← Complex.ofReal_mul, Complex.cos_ofReal_re, Complex.ofReal_cos]
  · rw [← mul_assoc, Complex.cos_mul_I, ← Complex.ofReal_mul, Complex.cosh_ofReal_re,
      Complex.ofReal_cosh]

theorem sinK_complex (k z : ℝ) : (sinK k z : ℂ) * csqrt k = Complex.sin (csqrt k * z) := by
  unfold sinK
  split_ifs with h
  · have h0 := h
    unfold csqrt at h ⊢
    split_ifs at h ⊢ with hk
    · rw [← Complex.ofReal_mul (√k) z, ← Complex.ofReal_sin, ← Complex.ofReal_div, Complex.ofReal_re,
        Complex.ofReal_div, div_mul_cancel₀ _ h]
    · have e : (√(-k) : ℂ) * Complex.I * z = (√(-k) * z : ℝ) * Complex.I := by push_cast; ring
      have hs : (√(-k) : ℂ) ≠ 0 := left_ne_zero_of_mul h
      rw [e, Complex.sin_mul_I, mul_div_mul_right _ _ Complex.I_ne_zero, ← Complex.ofReal_sinh,
        ← Complex.ofReal_div, Complex.ofReal_re, Complex.ofReal_div, ← mul_assoc,
        div_mul_cancel₀ _ hs]
  · rw [not_not] at h
    rw [h]; simp

theorem cosK_add (k a b : ℝ) :
    cosK k (a + b) = cosK k a * cosK k b - k * sinK k a * sinK k b := by
  have h : ((cosK k (a + b) : ℝ) : ℂ) =
      ((cosK k a * cosK k b - k * sinK k a * sinK k b : ℝ) : ℂ) := by
    push_cast
    rw [cosK_complex, cosK_complex, cosK_complex, Complex.ofReal_add, add_mul, Complex.cos_add,
      ← csqrt_sq k, mul_comm (a : ℂ), mul_comm (b : ℂ), ← sinK_complex, ← sinK_complex]
    ring
  exact_mod_cast h

theorem sinK_add (k a b : ℝ) :
    sinK k (a + b) = sinK k a * cosK k b + cosK k a * sinK k b := by
  by_cases hk : k = 0
  · subst hk
    have h0 : csqrt 0 = 0 := (csqrt_eq_zero 0).mpr rfl
    simp [sinK, cosK, h0]
  · have hw := (csqrt_ne_zero k).mpr hk
    have h : ((sinK k (a + b) : ℝ) : ℂ) * csqrt k =
        ((sinK k a * cosK k b + cosK k a * sinK k b : ℝ) : ℂ) * csqrt k := by
      push_cast
      rw [sinK_complex, cosK_complex, cosK_complex, Complex.ofReal_add, mul_add, Complex.sin_add,
        ← sinK_complex, ← sinK_complex, mul_comm (a : ℂ), mul_comm (b : ℂ)]
      ring
    exact_mod_cast mul_right_cancel₀ hw h

theorem cosK_sq (k z : ℝ) : cosK k z ^ 2 + k * sinK k z ^ 2 = 1 := by
  have h : ((cosK k z ^ 2 + k * sinK k z ^ 2 : ℝ) : ℂ) = 1 := by
    push_cast
    rw [cosK_complex, ← csqrt_sq k, ← mul_pow, mul_comm (csqrt k), sinK_complex,
      mul_comm (csqrt k), add_comm, Complex.sin_sq_add_cos_sq]
  exact_mod_cast h

@[simp] theorem cosK_zero (k : ℝ) : cosK k 0 = 1 := by simp [cosK]
@[simp] theorem sinK_zero (k : ℝ) : sinK k 0 = 0 := by simp [sinK]
@[simp] theorem cosK_free (z : ℝ) : cosK 0 z = 1 := by
  simp [cosK, (csqrt_eq_zero 0).mpr rfl]
@[simp] theorem sinK_free (z : ℝ) : sinK 0 z = z := by
  simp [sinK, (csqrt_eq_zero 0).mpr rfl]

/-- Dispersion function `(1 - cx) / kx2`, with its limit. -/
noncomputable def dK (k z : ℝ) : ℝ := if k ≠ 0 then (1 - cosK k z) / k else z * z / 2

/-- `(z - sx) / kx2`, with its limit. -/
noncomputable def eK (k z : ℝ) : ℝ := if k ≠ 0 then (z - sinK k z) / k else z * z * z / 6

theorem dK_mul (k z : ℝ) : k * dK k z = 1 - cosK k z := by
  unfold dK
  split_ifs with h
  · field_simp
  · rw [not_not] at h; subst h; simp

theorem eK_mul (k z : ℝ) : k * eK k z = z - sinK k z := by
  unfold eK
  split_ifs with h
  · field_simp
  · rw [not_not] at h; subst h; simp

theorem dK_add (k a b : ℝ) :
    dK k (a + b) = dK k a + sinK k a * sinK k b + cosK k a * dK k b := by
  by_cases h : k = 0
  · subst h; simp [dK]; ring
  · have h1 := dK_mul k (a + b)
    have h2 := dK_mul k a
    have h3 := dK_mul k b
    have h4 := cosK_add k a b
    refine mul_left_cancel₀ h ?_
    rw [mul_add, mul_add, h1, h4, h2]
    linear_combination -cosK k a * h3

theorem eK_add (k a b : ℝ) :
    eK k (a + b) = eK k a + dK k a * b + sinK k a * dK k b + cosK k a * eK k b := by
  by_cases h : k = 0
  · subst h; simp [dK, eK]; ring
  · have h1 := eK_mul k (a + b)
    have h2 := eK_mul k a
    have h3 := eK_mul k b
    have h4 := dK_mul k a
    have h5 := dK_mul k b
    have h6 := sinK_add k a b
    refine mul_left_cancel₀ h ?_
    linear_combination h1 - h2 - b * h4 - sinK k a * h5 - cosK k a * h3 - h6

theorem sinK_sq (k z : ℝ) : sinK k z ^ 2 = dK k z * (1 + cosK k z) := by
  by_cases h : k = 0
  · subst h; simp [dK]; ring
  · refine mul_left_cancel₀ h ?_
    linear_combination cosK_sq k z - (1 + cosK k z) * dK_mul k z

theorem dK_zero (k : ℝ) : dK k 0 = 0 := by simp [dK]
theorem eK_zero (k : ℝ) : eK k 0 = 0 := by simp [eK]

end WakeT.TransferMatrix
