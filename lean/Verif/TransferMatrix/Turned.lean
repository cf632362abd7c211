import Verif.TransferMatrix.Entries

/-! # Transfer maps of magnets that are turned about their axis -/

set_option linter.unusedSectionVars false

namespace WakeT.TransferMatrix

open Matrix

/-- Coordinates of a particle turned about the axis; `c` and `s` are the cosine and sine of the angle. -/
def turn (c s : ℝ) (v : V6) : V6 :=
  ![c * v 0 - s * v 2, c * v 1 - s * v 3, s * v 0 + c * v 2, s * v 1 + c * v 3, v 4, v 5]

theorem linear_rows (z L k1 g : ℝ) (v : V6) : firstOrder z L 0 k1 g *ᵥ v =
    ![cosK k1 z * v 0 + sinK k1 z * v 1, -k1 * sinK k1 z * v 0 + cosK k1 z * v 1,
      cosK (-k1) z * v 2 + sinK (-k1) z * v 3, k1 * sinK (-k1) z * v 2 + cosK (-k1) z * v 3,
      v 4 - z / (beta g * beta g) * igamma2 g * v 5, v 5] := by
  unfold firstOrder
  funext i
  fin_cases i <;> simp [mulVec, dotProduct, Fin.sum_univ_succ]
  ring

/-- The part of second order, row by row, without bend and sextupole. -/
theorem quad_rows (z L k1 g : ℝ) (v : V6) (i : Fin 6) :
    ∑ j, ∑ k, secondOrder z L 0 k1 0 g i j k * v j * v k =
      ![1 / 2 / beta g * (k1 * z * sinK k1 z * v 0 - (sinK k1 z + z * cosK k1 z) * v 1) * v 5,
        1 / 2 / beta g * (-k1 * (sinK k1 z - z * cosK k1 z) * v 0 + k1 * z * sinK k1 z * v 1) * v 5,
        1 / 2 / beta g * (-k1 * z * sinK (-k1) z * v 2 - (sinK (-k1) z + z * cosK (-k1) z) * v 3) * v 5,
        1 / 2 / beta g * (k1 * (sinK (-k1) z - z * cosK (-k1) z) * v 2 - k1 * z * sinK (-k1) z * v 3) * v 5,
        1 / 4 / beta g * (k1 * (z - sinK k1 z * cosK k1 z) * v 0 ^ 2 - 2 * k1 * sinK k1 z ^ 2 * v 0 * v 1
            + (z + sinK k1 z * cosK k1 z) * v 1 ^ 2
            - k1 * (z - cosK (-k1) z * sinK (-k1) z) * v 2 ^ 2 + 2 * k1 * sinK (-k1) z ^ 2 * v 2 * v 3
            + (z + cosK (-k1) z * sinK (-k1) z) * v 3 ^ 2)
          + 3 / 2 / (beta g * beta g * beta g) * igamma2 g * z * v 5 ^ 2, 0] i := by
  have e1 : (coef z L 0 k1 0 g).h = 0 := by simp [coef]
  have e2 : (coef z L 0 k1 0 g).K2 = 0 := rfl
  have e3 : (coef z L 0 k1 0 g).khk = 0 := by simp [coef]
  have e4 : (coef z L 0 k1 0 g).K1 = k1 := rfl
  have e5 : (coef z L 0 k1 0 g).L = z := rfl
  have e6 : (coef z L 0 k1 0 g).sx = sinK k1 z := by simp [coef]
  have e7 : (coef z L 0 k1 0 g).cx = cosK k1 z := by simp [coef]
  have e8 : (coef z L 0 k1 0 g).sy = sinK (-k1) z := rfl
  have e9 : (coef z L 0 k1 0 g).cy = cosK (-k1) z := rfl
  have e10 : (coef z L 0 k1 0 g).β = beta g := rfl
  have e11 : (coef z L 0 k1 0 g).ig = igamma2 g := rfl
  have e12 : k1 * ((coef z L 0 k1 0 g).J1 - sinK k1 z * (coef z L 0 k1 0 g).dx) = z - 2 * sinK k1 z + sinK k1 z * cosK k1 z := by
    by_cases hk : k1 = 0
    · subst hk
      rw [sinK_free, cosK_free]
      ring
    · have q1 : (coef z L 0 k1 0 g).J1 = (z - sinK k1 z) / k1 := by simp [coef, hk]
      have q2 : (coef z L 0 k1 0 g).dx = (1 - cosK k1 z) / k1 := by simp [coef, hk, csqrt_eq_zero]
      rw [q1, q2]
      field_simp
      ring
  unfold secondOrder
  fin_cases i
  · show ∑ j, ∑ k, (coef z L 0 k1 0 g).T 0 j k * v j * v k = _
    rw [T_row0]
    simp only [T_000, T_001, T_005, T_011, T_015, T_022, T_023, T_033, T_055, e1, e2, e3, e4, e5, e6, e7, e8, e9, e10, e11]
    show _ = 1 / 2 / beta g * (k1 * z * sinK k1 z * v 0 - (sinK k1 z + z * cosK k1 z) * v 1) * v 5
    ring
  · show ∑ j, ∑ k, (coef z L 0 k1 0 g).T 1 j k * v j * v k = _
    rw [T_row1]
    simp only [T_100, T_101, T_105, T_111, T_115, T_122, T_123, T_133, T_155, e1, e2, e3, e4, e5, e6, e7, e8, e9, e10, e11]
    show _ = 1 / 2 / beta g * (-k1 * (sinK k1 z - z * cosK k1 z) * v 0 + k1 * z * sinK k1 z * v 1) * v 5
    ring
  · show ∑ j, ∑ k, (coef z L 0 k1 0 g).T 2 j k * v j * v k = _
    rw [T_row2]
    simp only [T_202, T_203, T_212, T_213, T_225, T_235, e1, e2, e3, e4, e5, e6, e7, e8, e9, e10, e11]
    show _ = 1 / 2 / beta g * (-k1 * z * sinK (-k1) z * v 2 - (sinK (-k1) z + z * cosK (-k1) z) * v 3) * v 5
    ring
  · show ∑ j, ∑ k, (coef z L 0 k1 0 g).T 3 j k * v j * v k = _
    rw [T_row3]
    simp only [T_302, T_303, T_312, T_313, T_325, T_335, e1, e2, e3, e4, e5, e6, e7, e8, e9, e10, e11]
    show _ = 1 / 2 / beta g * (k1 * (sinK (-k1) z - z * cosK (-k1) z) * v 2 - k1 * z * sinK (-k1) z * v 3) * v 5
    ring
  · show ∑ j, ∑ k, (coef z L 0 k1 0 g).T 4 j k * v j * v k = _
    rw [T_row4]
    simp only [T_400, T_401, T_405, T_411, T_415, T_422, T_423, T_433, T_455, e1, e2, e3, e4, e5, e6, e7, e8, e9, e10, e11]
    show _ = 1 / 4 / beta g * (k1 * (z - sinK k1 z * cosK k1 z) * v 0 ^ 2 - 2 * k1 * sinK k1 z ^ 2 * v 0 * v 1
            + (z + sinK k1 z * cosK k1 z) * v 1 ^ 2
            - k1 * (z - cosK (-k1) z * sinK (-k1) z) * v 2 ^ 2 + 2 * k1 * sinK (-k1) z ^ 2 * v 2 * v 3
            + (z + cosK (-k1) z * sinK (-k1) z) * v 3 ^ 2)
          + 3 / 2 / (beta g * beta g * beta g) * igamma2 g * z * v 5 ^ 2
    linear_combination (1 / 4 / beta g * v 1 ^ 2) * e12
  · show ∑ j, ∑ k, (coef z L 0 k1 0 g).T 5 j k * v j * v k = _
    rw [T_row5]
    rfl

/-- The part of second order, row by row, of a sextupole without bend and quadrupole. -/
theorem sext_rows (z L k2 g : ℝ) (v : V6) (i : Fin 6) :
    ∑ j, ∑ k, secondOrder z L 0 0 k2 g i j k * v j * v k =
      ![-k2 * (z ^ 2 / 4 * (v 0 ^ 2 - v 2 ^ 2) + z ^ 3 / 6 * (v 0 * v 1 - v 2 * v 3) + z ^ 4 / 24 * (v 1 ^ 2 - v 3 ^ 2)) - 1 / beta g * z * v 1 * v 5,
        -k2 * (z / 2 * (v 0 ^ 2 - v 2 ^ 2) + z ^ 2 / 2 * (v 0 * v 1 - v 2 * v 3) + z ^ 3 / 6 * (v 1 ^ 2 - v 3 ^ 2)),
        k2 * (z ^ 2 / 2 * v 0 * v 2 + z ^ 3 / 6 * (v 0 * v 3 + v 1 * v 2) + z ^ 4 / 12 * v 1 * v 3) - 1 / beta g * z * v 3 * v 5,
        k2 * (z * v 0 * v 2 + z ^ 2 / 2 * (v 0 * v 3 + v 1 * v 2) + z ^ 3 / 3 * v 1 * v 3),
        1 / 2 / beta g * z * (v 1 ^ 2 + v 3 ^ 2) + 3 / 2 / (beta g * beta g * beta g) * igamma2 g * z * v 5 ^ 2, 0] i := by
  have e1 : (coef z L 0 0 k2 g).h = 0 := by simp [coef]
  have e2 : (coef z L 0 0 k2 g).K2 = k2 := rfl
  have e3 : (coef z L 0 0 k2 g).khk = k2 := by simp [coef]
  have e4 : (coef z L 0 0 k2 g).K1 = 0 := rfl
  have e5 : (coef z L 0 0 k2 g).L = z := rfl
  have e6 : (coef z L 0 0 k2 g).sx = z := by simp [coef]
  have e7 : (coef z L 0 0 k2 g).cx = 1 := by simp [coef]
  have e8 : (coef z L 0 0 k2 g).sy = z := by simp [coef]
  have e9 : (coef z L 0 0 k2 g).cy = 1 := by simp [coef]
  have e10 : (coef z L 0 0 k2 g).β = beta g := rfl
  have e11 : (coef z L 0 0 k2 g).ig = igamma2 g := rfl
  have e12 : (coef z L 0 0 k2 g).dx = z * z / 2 := by simp [coef, csqrt_eq_zero]
  have e13 : (coef z L 0 0 k2 g).Jc = 1 / 2 * (z * z) := by simp [coef]
  have e14 : (coef z L 0 0 k2 g).Js = z * z * z / 6 := by simp [coef]
  have e15 : (coef z L 0 0 k2 g).Jd = z * z * z * z / 24 := by simp [coef]
  unfold secondOrder
  fin_cases i
  · show ∑ j, ∑ k, (coef z L 0 0 k2 g).T 0 j k * v j * v k =
      -k2 * (z ^ 2 / 4 * (v 0 ^ 2 - v 2 ^ 2) + z ^ 3 / 6 * (v 0 * v 1 - v 2 * v 3) + z ^ 4 / 24 * (v 1 ^ 2 - v 3 ^ 2)) - 1 / beta g * z * v 1 * v 5
    rw [T_row0]
    simp only [T_000, T_001, T_005, T_011, T_015, T_022, T_023, T_033, T_055, e1, e2, e3, e4, e5, e6, e7, e8, e9, e10, e11, e12, e13, e14, e15]
    ring
  · show ∑ j, ∑ k, (coef z L 0 0 k2 g).T 1 j k * v j * v k =
      -k2 * (z / 2 * (v 0 ^ 2 - v 2 ^ 2) + z ^ 2 / 2 * (v 0 * v 1 - v 2 * v 3) + z ^ 3 / 6 * (v 1 ^ 2 - v 3 ^ 2))
    rw [T_row1]
    simp only [T_100, T_101, T_105, T_111, T_115, T_122, T_123, T_133, T_155, e1, e2, e3, e4, e5, e6, e7, e8, e9, e10, e11, e12, e13, e14, e15]
    ring
  · show ∑ j, ∑ k, (coef z L 0 0 k2 g).T 2 j k * v j * v k =
      k2 * (z ^ 2 / 2 * v 0 * v 2 + z ^ 3 / 6 * (v 0 * v 3 + v 1 * v 2) + z ^ 4 / 12 * v 1 * v 3) - 1 / beta g * z * v 3 * v 5
    rw [T_row2]
    simp only [T_202, T_203, T_212, T_213, T_225, T_235, e1, e2, e3, e4, e5, e6, e7, e8, e9, e10, e11, e12, e13, e14, e15]
    ring
  · show ∑ j, ∑ k, (coef z L 0 0 k2 g).T 3 j k * v j * v k =
      k2 * (z * v 0 * v 2 + z ^ 2 / 2 * (v 0 * v 3 + v 1 * v 2) + z ^ 3 / 3 * v 1 * v 3)
    rw [T_row3]
    simp only [T_302, T_303, T_312, T_313, T_325, T_335, e1, e2, e3, e4, e5, e6, e7, e8, e9, e10, e11, e12, e13, e14, e15]
    ring
  · show ∑ j, ∑ k, (coef z L 0 0 k2 g).T 4 j k * v j * v k =
      1 / 2 / beta g * z * (v 1 ^ 2 + v 3 ^ 2) + 3 / 2 / (beta g * beta g * beta g) * igamma2 g * z * v 5 ^ 2
    rw [T_row4]
    simp only [T_400, T_401, T_405, T_411, T_415, T_422, T_423, T_433, T_455, e1, e2, e3, e4, e5, e6, e7, e8, e9, e10, e11, e12, e13, e14, e15]
    ring
  · show ∑ j, ∑ k, (coef z L 0 0 k2 g).T 5 j k * v j * v k = 0
    rw [T_row5]

/-- The drift is symmetric about its axis. -/
theorem transferMap_drift (z L g : ℝ) (order : ℕ) {c s : ℝ} (h : c ^ 2 + s ^ 2 = 1) (v : V6) :
    transferMap z L 0 0 0 g order (turn c s v) = turn c s (transferMap z L 0 0 0 g order v) := by
  unfold transferMap
  dsimp only
  rw [linear_rows, linear_rows]
  split_ifs
  · funext i
    rw [sext_rows]
    fin_cases i <;> simp [turn, sext_rows]
    · ring
    · ring
    · left
      linear_combination (v 1 ^ 2 + v 3 ^ 2) * h
  · funext i
    fin_cases i <;> simp [turn] <;> ring

/-- A quadrupole turned by a right angle is one with the opposite gradient. -/
theorem transferMap_quad (z L k1 g : ℝ) (order : ℕ) (v : V6) :
    transferMap z L 0 (-k1) 0 g order (turn 0 1 v) = turn 0 1 (transferMap z L 0 k1 0 g order v) := by
  unfold transferMap
  dsimp only
  rw [linear_rows, linear_rows]
  split_ifs
  · funext i
    rw [quad_rows]
    fin_cases i <;> simp [turn, quad_rows] <;> first | ring1 | (left; ring1)
  · funext i
    fin_cases i <;> simp [turn] <;> ring

/-- A sextupole turned by a sixth of a turn is one with the opposite strength. -/
theorem transferMap_sext (z L k2 g : ℝ) (order : ℕ) {s : ℝ} (hs : s ^ 2 = 3 / 4) (v : V6) :
    transferMap z L 0 0 (-k2) g order (turn (1 / 2) s v) = turn (1 / 2) s (transferMap z L 0 0 k2 g order v) := by
  unfold transferMap
  dsimp only
  rw [linear_rows, linear_rows]
  split_ifs
  · funext i
    rw [sext_rows]
    fin_cases i
    · simp [turn, sext_rows]
      linear_combination (-k2 * (z ^ 2 / 4 * (v 0 ^ 2 - v 2 ^ 2) + z ^ 3 / 6 * (v 0 * v 1 - v 2 * v 3) + z ^ 4 / 24 * (v 1 ^ 2 - v 3 ^ 2))) * hs
    · simp [turn, sext_rows]
      linear_combination (-k2 * (z / 2 * (v 0 ^ 2 - v 2 ^ 2) + z ^ 2 / 2 * (v 0 * v 1 - v 2 * v 3) + z ^ 3 / 6 * (v 1 ^ 2 - v 3 ^ 2))) * hs
    · simp [turn, sext_rows]
      linear_combination (k2 * (z ^ 2 / 2 * v 0 * v 2 + z ^ 3 / 6 * (v 0 * v 3 + v 1 * v 2) + z ^ 4 / 12 * v 1 * v 3)) * hs
    · simp [turn, sext_rows]
      linear_combination (k2 * (z * v 0 * v 2 + z ^ 2 / 2 * (v 0 * v 3 + v 1 * v 2) + z ^ 3 / 3 * v 1 * v 3)) * hs
    · simp [turn, sext_rows]
      left
      linear_combination (v 1 ^ 2 + v 3 ^ 2) * hs
    · simp [turn, sext_rows]
  · funext i
    fin_cases i <;> simp [turn] <;> ring

end WakeT.TransferMatrix
