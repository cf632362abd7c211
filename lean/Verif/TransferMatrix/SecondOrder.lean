import Verif.TransferMatrix.Entries
import Verif.TransferMatrix.Props

/-! # Composition of the second-order maps -/

set_option linter.unusedSectionVars false
set_option linter.unusedSimpArgs false

namespace WakeT.TransferMatrix

open Matrix

/-- Second-order part of the map. -/
noncomputable def quad (z L theta k1 k2 gamma : ℝ) (v : V6) : V6 :=
  fun i => ∑ j, ∑ k, secondOrder z L theta k1 k2 gamma i j k * v j * v k

theorem coef_dx (z L theta k1 k2 gamma : ℝ) :
    (coef z L theta k1 k2 gamma).dx = dK (k1 + theta / L * (theta / L)) z := by
  simp only [coef, csqrt_ne_zero, dK]

theorem coef_J1 (z L theta k1 k2 gamma : ℝ) :
    (coef z L theta k1 k2 gamma).J1 = eK (k1 + theta / L * (theta / L)) z := by
  simp only [coef, eK]

theorem cosK_eq (k z : ℝ) : cosK k z = 1 - k * dK k z := by linarith [dK_mul k z]
theorem len_eq (k z : ℝ) : z = sinK k z + k * eK k z := by linarith [eK_mul k z]
theorem sinK_sq' (k z : ℝ) : sinK k z * sinK k z = dK k z * (2 - k * dK k z) := by
  have h1 := sinK_sq k z
  rw [cosK_eq] at h1
  linarith

section fields
variable (z L theta k1 k2 gamma : ℝ)

theorem coef_β : (coef z L theta k1 k2 gamma).β = beta gamma := rfl
theorem coef_ig : (coef z L theta k1 k2 gamma).ig = igamma2 gamma := rfl
theorem coef_h : (coef z L theta k1 k2 gamma).h = theta / L := rfl
theorem coef_L : (coef z L theta k1 k2 gamma).L = z := rfl
theorem coef_kx2 : (coef z L theta k1 k2 gamma).kx2 = k1 + theta / L * (theta / L) := rfl
theorem coef_cx :
    (coef z L theta k1 k2 gamma).cx = cosK (k1 + theta / L * (theta / L)) z := rfl
theorem coef_sx :
    (coef z L theta k1 k2 gamma).sx = sinK (k1 + theta / L * (theta / L)) z := rfl
theorem coef_cy : (coef z L theta k1 k2 gamma).cy = cosK (-k1) z := rfl
theorem coef_sy : (coef z L theta k1 k2 gamma).sy = sinK (-k1) z := rfl
theorem coef_K1 : (coef z L theta k1 k2 gamma).K1 = k1 := rfl
theorem coef_K2 : (coef z L theta k1 k2 gamma).K2 = k2 := rfl
theorem coef_khk :
    (coef z L theta k1 k2 gamma).khk = k2 + 2 * (theta / L) * k1 := rfl

end fields

set_option maxHeartbeats 1000000 in
/-- Second-order part of a bend without gradients. -/
theorem quad_bend (z L theta gamma : ℝ) (v : V6) :
    quad z L theta 0 0 gamma v =
      let h := theta / L
      let b := (beta gamma)⁻¹
      let ig := igamma2 gamma
      let s := sinK (h * h) z
      let c := cosK (h * h) z
      let d := dK (h * h) z
      let e := eK (h * h) z
      ![-(1/2)*h*(h*h)*s*s*v 0*v 0 + h*s*c*v 0*v 1 + h*h*b*s*s*v 0*v 5 + 1/2*h*d*c*v 1*v 1
          + (1/2*h*h*b*(s*d + c*e) - 1/2*b*(s + z*c))*v 1*v 5 - 1/2*h*d*v 3*v 3
          + (1/2*h*h*h*b*b*s*e - 1/2*h*b*b*z*s - 1/2*h*b*b*ig*d)*v 5*v 5,
        -(1/2)*h*s*v 1*v 1 - 1/2*h*s*v 3*v 3 - 1/2*h*b*b*ig*s*v 5*v 5,
        h*s*v 0*v 3 + h*d*v 1*v 3 + (h*h*b*e - b*z)*v 3*v 5,
        0,
        1/2*s*b*v 1*v 1 - h*b*b*ig*s*v 0*v 5 - h*b*b*ig*d*v 1*v 5
          - 3/2*ig*b*b*b*(h*h*e - z)*v 5*v 5 - (1/2*h*h*b*e - 1/2*z*b)*v 3*v 3,
        0] := by
  funext i
  fin_cases i
  · refine (T_row0 (coef z L theta 0 0 gamma) v).trans ?_
    simp only [T_000, T_001, T_011, T_005, T_015, T_055, T_022, T_023, T_033, coef_dx, coef_J1, coef_β, coef_h, coef_L, coef_cx, coef_sx,
      coef_cy, coef_sy, coef_kx2, coef_K1, coef_K2, coef_ig, coef_khk, div_eq_mul_inv]
    simp
    try ring
  · refine (T_row1 (coef z L theta 0 0 gamma) v).trans ?_
    simp only [T_100, T_101, T_111, T_105, T_115, T_155, T_122, T_123, T_133, coef_dx, coef_J1, coef_β, coef_h, coef_L, coef_cx, coef_sx,
      coef_cy, coef_sy, coef_kx2, coef_K1, coef_K2, coef_ig, coef_khk, div_eq_mul_inv]
    simp
    try ring
  · refine (T_row2 (coef z L theta 0 0 gamma) v).trans ?_
    simp only [T_202, T_203, T_212, T_213, T_225, T_235, coef_dx, coef_J1, coef_β, coef_h, coef_L, coef_cx, coef_sx,
      coef_cy, coef_sy, coef_kx2, coef_K1, coef_K2, coef_ig, coef_khk, div_eq_mul_inv]
    simp
    try ring
  · refine (T_row3 (coef z L theta 0 0 gamma) v).trans ?_
    simp only [T_302, T_303, T_312, T_313, T_325, T_335, coef_dx, coef_J1, coef_β, coef_h, coef_L, coef_cx, coef_sx,
      coef_cy, coef_sy, coef_kx2, coef_K1, coef_K2, coef_ig, coef_khk, div_eq_mul_inv]
    simp
    try ring
  · refine (T_row4 (coef z L theta 0 0 gamma) v).trans ?_
    simp only [T_400, T_401, T_411, T_405, T_415, T_455, T_422, T_423, T_433, coef_dx, coef_J1, coef_β, coef_h, coef_L, coef_cx, coef_sx,
      coef_cy, coef_sy, coef_kx2, coef_K1, coef_K2, coef_ig, coef_khk, div_eq_mul_inv]
    simp
    try ring
  · refine (T_row5 (coef z L theta 0 0 gamma) v).trans ?_
    simp

set_option maxHeartbeats 1000000 in
/-- Second-order part of an element without curvature. -/
theorem quad_straight (z L k K gamma : ℝ) (v : V6) :
    quad z L 0 k K gamma v =
      let b := (beta gamma)⁻¹
      let ig := igamma2 gamma
      let s := sinK k z
      let c := cosK k z
      let d := dK k z
      let S := sinK (-k) z
      let C := cosK (-k) z
      let Jc := (coef z L 0 k K gamma).Jc
      let Js := (coef z L 0 k K gamma).Js
      let Jd := (coef z L 0 k K gamma).Jd
      ![-(K/6)*(s*s + d)*v 0*v 0 - K/3*s*d*v 0*v 1 - K/6*d*d*v 1*v 1 + 1/2*b*k*z*s*v 0*v 5
          - 1/2*b*(s + z*c)*v 1*v 5 + (k*K*Jd + 1/2*K*d)*v 2*v 2 + K*Js*v 2*v 3 + K*Jd*v 3*v 3,
        -(K/6)*s*(1 + 2*c)*v 0*v 0 - K/3*d*(1 + 2*c)*v 0*v 1 - K/3*s*d*v 1*v 1
          - 1/2*b*k*(s - z*c)*v 0*v 5 + 1/2*b*k*z*s*v 1*v 5 + (k*K*Js + 1/2*K*s)*v 2*v 2
          + K*Jc*v 2*v 3 + K*Js*v 3*v 3,
        K*(C*Jc - 2*k*S*Js)*v 0*v 2 + K*(S*Jc - 2*C*Js)*v 0*v 3 + K*(C*Js - 2*k*S*Jd)*v 1*v 2
          + K*(S*Js - 2*C*Jd)*v 1*v 3 - 1/2*b*k*z*S*v 2*v 5 - 1/2*b*(S + z*C)*v 3*v 5,
        (k*K*(2*C*Js - S*Jc) + K*s*C)*v 0*v 2 + (K*(2*k*S*Js - C*Jc) + K*s*S)*v 0*v 3
          + (k*K*(2*C*Jd - S*Js) + K*d*C)*v 1*v 2 + (K*(2*k*S*Jd - C*Js) + K*d*S)*v 1*v 3
          + 1/2*b*k*(S - z*C)*v 2*v 5 - 1/2*b*k*z*S*v 3*v 5,
        1/4*b*k*(z - s*c)*v 0*v 0 - 1/2*b*k*s*s*v 0*v 1
          + (1/2*b*s + 1/4*b*((z - s) - k*s*d))*v 1*v 1 + 3/2*ig*b*b*b*z*v 5*v 5
          - 1/4*b*k*(z - C*S)*v 2*v 2 + 1/2*b*k*S*S*v 2*v 3 + 1/4*b*(z + C*S)*v 3*v 3,
        0] := by
  have he := eK_mul k z
  funext i
  fin_cases i
  · refine (T_row0 (coef z L 0 k K gamma) v).trans ?_
    simp only [T_000, T_001, T_011, T_005, T_015, T_055, T_022, T_023, T_033, coef_dx, coef_J1, coef_β, coef_h, coef_L, coef_cx, coef_sx,
      coef_cy, coef_sy, coef_kx2, coef_K1, coef_K2, coef_ig, coef_khk, div_eq_mul_inv]
    simp
    try ring
  · refine (T_row1 (coef z L 0 k K gamma) v).trans ?_
    simp only [T_100, T_101, T_111, T_105, T_115, T_155, T_122, T_123, T_133, coef_dx, coef_J1, coef_β, coef_h, coef_L, coef_cx, coef_sx,
      coef_cy, coef_sy, coef_kx2, coef_K1, coef_K2, coef_ig, coef_khk, div_eq_mul_inv]
    simp
    try ring
  · refine (T_row2 (coef z L 0 k K gamma) v).trans ?_
    simp only [T_202, T_203, T_212, T_213, T_225, T_235, coef_dx, coef_J1, coef_β, coef_h, coef_L, coef_cx, coef_sx,
      coef_cy, coef_sy, coef_kx2, coef_K1, coef_K2, coef_ig, coef_khk, div_eq_mul_inv]
    simp
    try ring
  · refine (T_row3 (coef z L 0 k K gamma) v).trans ?_
    simp only [T_302, T_303, T_312, T_313, T_325, T_335, coef_dx, coef_J1, coef_β, coef_h, coef_L, coef_cx, coef_sx,
      coef_cy, coef_sy, coef_kx2, coef_K1, coef_K2, coef_ig, coef_khk, div_eq_mul_inv]
    simp
    try ring
  · refine (T_row4 (coef z L 0 k K gamma) v).trans ?_
    simp only [T_400, T_401, T_411, T_405, T_415, T_455, T_422, T_423, T_433, coef_dx, coef_J1, coef_β, coef_h, coef_L, coef_cx, coef_sx,
      coef_cy, coef_sy, coef_kx2, coef_K1, coef_K2, coef_ig, coef_khk, div_eq_mul_inv]
    simp
    linear_combination (1 / 4 * (beta gamma)⁻¹ * v 1 * v 1) * he
  · refine (T_row5 (coef z L 0 k K gamma) v).trans ?_
    simp

theorem cos_double (k z : ℝ) :
    (Complex.cos (2 * csqrt k * z)).re = 2 * cosK k z ^ 2 - 1 := by
  rw [show 2 * csqrt k * (z : ℂ) = 2 * (z * csqrt k) by ring, Complex.cos_two_mul, ← cosK_complex]
  norm_cast

theorem J_free (z L K gamma : ℝ) :
    (coef z L 0 0 K gamma).Jc = 1 / 2 * (z * z) ∧ (coef z L 0 0 K gamma).Js = z * z * z / 6 ∧
      (coef z L 0 0 K gamma).Jd = z * z * z * z / 24 := by
  refine ⟨?_, ?_, ?_⟩ <;> simp [coef]

theorem J_focus (z L k K gamma : ℝ) (hk : k ≠ 0) :
    (coef z L 0 k K gamma).Jc = (2 * cosK (-k) z ^ 2 - 1 - cosK k z) / 5 * k⁻¹ ∧
      (coef z L 0 k K gamma).Js = (cosK (-k) z * sinK (-k) z - sinK k z) / 5 * k⁻¹ ∧
      (coef z L 0 k K gamma).Jd = (1 / 2 * sinK (-k) z * sinK (-k) z - dK k z) / 5 * k⁻¹ := by
  have h0 : csqrt k ≠ 0 := (csqrt_ne_zero k).mpr hk
  have h5 : k + 0 / L * (0 / L) - 4 * -k = 5 * k := by simp; ring
  have h5' : (5 : ℝ) * k ≠ 0 := by positivity
  refine ⟨?_, ?_, ?_⟩
  · simp only [coef, h5, if_pos h5', cos_double]
    simp only [zero_div, mul_zero, add_zero]
    field_simp
  · simp only [coef, h5, if_pos h5']
    simp only [zero_div, mul_zero, add_zero]
    field_simp
  · simp only [coef, h5, if_pos h5']
    simp only [zero_div, mul_zero, add_zero, if_pos h0, dK, if_pos hk]
    field_simp

set_option maxHeartbeats 4000000 in
/-- Composition of the second-order parts for a bend without gradients. -/
theorem quad_compose_bend (z1 z2 L theta gamma : ℝ) (v : V6) :
    quad (z1 + z2) L theta 0 0 gamma v =
      firstOrder z2 L theta 0 gamma *ᵥ quad z1 L theta 0 0 gamma v +
        quad z2 L theta 0 0 gamma (firstOrder z1 L theta 0 gamma *ᵥ v) := by
  rw [firstOrder_mulVec, firstOrder_mulVec, quad_bend, quad_bend, quad_bend]
  dsimp only
  simp only [zero_add, neg_zero, cosK_free, sinK_free, div_eq_mul_inv, inv_pow]
  rw [sinK_add, cosK_add, dK_add, eK_add]
  have c1 := cosK_eq (theta * L⁻¹ * (theta * L⁻¹)) z1
  have c2 := cosK_eq (theta * L⁻¹ * (theta * L⁻¹)) z2
  have l1 := len_eq (theta * L⁻¹ * (theta * L⁻¹)) z1
  have l2 := len_eq (theta * L⁻¹ * (theta * L⁻¹)) z2
  have q1 := sinK_sq' (theta * L⁻¹ * (theta * L⁻¹)) z1
  have q2 := sinK_sq' (theta * L⁻¹ * (theta * L⁻¹)) z2
  generalize theta * L⁻¹ = h at *
  generalize cosK (h * h) z1 = C1 at *
  generalize cosK (h * h) z2 = C2 at *
  generalize sinK (h * h) z1 = s1 at *
  generalize sinK (h * h) z2 = s2 at *
  generalize dK (h * h) z1 = d1 at *
  generalize dK (h * h) z2 = d2 at *
  generalize eK (h * h) z1 = e1 at *
  generalize eK (h * h) z2 = e2 at *
  generalize (beta gamma)⁻¹ = b at *
  generalize igamma2 gamma = ig at *
  subst c1 c2 l1 l2
  funext i
  fin_cases i <;> simp
  · clear L theta gamma
    grind
  · clear L theta gamma
    grind
  · clear L theta gamma
    grind
  · clear L theta gamma
    grind

set_option maxHeartbeats 4000000 in
/-- Composition of the second-order parts without curvature and without gradient. -/
theorem quad_compose_free (z1 z2 L K gamma : ℝ) (v : V6) :
    quad (z1 + z2) L 0 0 K gamma v =
      firstOrder z2 L 0 0 gamma *ᵥ quad z1 L 0 0 K gamma v +
        quad z2 L 0 0 K gamma (firstOrder z1 L 0 0 gamma *ᵥ v) := by
  rw [firstOrder_mulVec, firstOrder_mulVec, quad_straight, quad_straight, quad_straight]
  dsimp only
  simp only [J_free, zero_add, neg_zero, cosK_free, sinK_free, zero_div, mul_zero]
  funext i
  fin_cases i <;> simp [dK] <;> ring

/-- A form that is a sum of products of `x, p, f` with `y, r` vanishes if it does on
pairs. -/
theorem split_mixed {D : ℝ → ℝ → ℝ → ℝ → ℝ → ℝ}
    (hD : ∀ x p y r f, D x p y r f = D x 0 y 0 0 + D x 0 0 r 0 + D 0 p y 0 0 + D 0 p 0 r 0 +
      D 0 0 y 0 f + D 0 0 0 r f)
    (h1 : ∀ x y, D x 0 y 0 0 = 0) (h2 : ∀ x r, D x 0 0 r 0 = 0) (h3 : ∀ p y, D 0 p y 0 0 = 0)
    (h4 : ∀ p r, D 0 p 0 r 0 = 0) (h5 : ∀ y f, D 0 0 y 0 f = 0) (h6 : ∀ r f, D 0 0 0 r f = 0) :
    ∀ x p y r f, D x p y r f = 0 := by
  intro x p y r f
  rw [hD, h1, h2, h3, h4, h5, h6]
  simp

set_option maxHeartbeats 8000000 in
/-- Composition of the second-order parts without curvature, with a gradient. -/
theorem quad_compose_focus (z1 z2 L k K gamma : ℝ) (hk : k ≠ 0) (v : V6) :
    quad (z1 + z2) L 0 k K gamma v =
      firstOrder z2 L 0 k gamma *ᵥ quad z1 L 0 k K gamma v +
        quad z2 L 0 k K gamma (firstOrder z1 L 0 k gamma *ᵥ v) := by
  rw [firstOrder_mulVec, firstOrder_mulVec, quad_straight, quad_straight, quad_straight]
  dsimp only
  simp only [J_focus _ _ _ _ _ hk, zero_div, mul_zero, add_zero, zero_mul, zero_add]
  rw [sinK_add, cosK_add, dK_add, sinK_add, cosK_add]
  have c1 := cosK_eq k z1
  have c2 := cosK_eq k z2
  have q1 := sinK_sq' k z1
  have q2 := sinK_sq' k z2
  have c3 := cosK_eq (-k) z1
  have c4 := cosK_eq (-k) z2
  have q3 := sinK_sq' (-k) z1
  have q4 := sinK_sq' (-k) z2
  have hκ : k * k⁻¹ = 1 := mul_inv_cancel₀ hk
  generalize k⁻¹ = κ at *
  generalize cosK k z1 = C1 at *
  generalize cosK k z2 = C2 at *
  generalize sinK k z1 = s1 at *
  generalize sinK k z2 = s2 at *
  generalize dK k z1 = d1 at *
  generalize dK k z2 = d2 at *
  generalize cosK (-k) z1 = C3 at *
  generalize cosK (-k) z2 = C4 at *
  generalize sinK (-k) z1 = s3 at *
  generalize sinK (-k) z2 = s4 at *
  generalize dK (-k) z1 = d3 at *
  generalize dK (-k) z2 = d4 at *
  generalize (beta gamma)⁻¹ = b at *
  generalize igamma2 gamma = ig at *
  subst c1 c2 c3 c4
  funext i
  generalize v 0 = x
  generalize v 1 = p
  generalize v 2 = y
  generalize v 3 = r
  generalize v 5 = f
  fin_cases i <;> simp <;> clear L gamma hk v
  · grind
  · grind
  · rw [← sub_eq_zero]
    revert x p y r f
    refine split_mixed ?_ ?_ ?_ ?_ ?_ ?_ ?_
    · intro x p y r f; ring
    all_goals intro a a'; grind
  · rw [← sub_eq_zero]
    revert x p y r f
    refine split_mixed ?_ ?_ ?_ ?_ ?_ ?_ ?_
    · intro x p y r f; ring
    all_goals intro a a'; grind
  · grind

end WakeT.TransferMatrix
