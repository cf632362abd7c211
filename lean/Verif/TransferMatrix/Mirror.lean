import Verif.TransferMatrix.Entries

/-! # Mirror symmetry of the transfer maps -/

set_option linter.unusedSectionVars false

namespace WakeT.TransferMatrix

open Matrix

/-- Signs of the coordinates of a particle mirrored horizontally. -/
def signX : V6 := ![-1, -1, 1, 1, 1, 1]

/-- Signs of the coordinates of a particle mirrored vertically. -/
def signY : V6 := ![1, 1, -1, -1, 1, 1]

/-- Coordinates with signs. -/
def signed (s v : V6) : V6 := fun i => s i * v i

theorem mulVec_signed {A A' : Matrix (Fin 6) (Fin 6) ℝ} {s : V6} (h : ∀ i j, A' i j * s j = s i * A i j) (v : V6) :
    A' *ᵥ signed s v = signed s (A *ᵥ v) := by
  funext i
  simp only [mulVec, dotProduct, signed, Finset.mul_sum]
  refine Finset.sum_congr rfl fun j _ => ?_
  rw [← mul_assoc, h]
  ring

theorem firstOrder_signX (z L θ k1 g : ℝ) (i j : Fin 6) :
    firstOrder z L (-θ) k1 g i j * signX j = signX i * firstOrder z L θ k1 g i j := by
  unfold firstOrder
  have h1 : -θ / L * (-θ / L) = θ / L * (θ / L) := by ring
  have h2 : -θ / L = -(θ / L) := by ring
  simp only [h1]
  rw [h2]
  fin_cases i <;> fin_cases j <;> simp [signX] <;> (try split_ifs) <;> ring

theorem firstOrder_signY (z L θ k1 g : ℝ) (i j : Fin 6) :
    firstOrder z L θ k1 g i j * signY j = signY i * firstOrder z L θ k1 g i j := by
  unfold firstOrder
  fin_cases i <;> fin_cases j <;> simp [signY]

/-- The numbers of the mirrored magnet. -/
def Coef.mirror (q : Coef) : Coef := { q with h := -q.h, K2 := -q.K2, khk := -q.khk }

theorem coef_mirror (z L θ k1 k2 g : ℝ) : coef z L (-θ) k1 (-k2) g = (coef z L θ k1 k2 g).mirror := by
  unfold coef Coef.mirror
  have h1 : -θ / L * (-θ / L) = θ / L * (θ / L) := by ring
  have h2 : -θ / L = -(θ / L) := by ring
  simp only [h1]
  rw [h2]
  simp only [Coef.mk.injEq, true_and]
  ring

theorem second_signX (q : Coef) (v : V6) (i : Fin 6) :
    ∑ j, ∑ k, q.mirror.T i j k * signed signX v j * signed signX v k = signX i * ∑ j, ∑ k, q.T i j k * v j * v k := by
  have s0 : signed signX v 0 = -v 0 := neg_one_mul _
  have s1 : signed signX v 1 = -v 1 := neg_one_mul _
  have s2 : signed signX v 2 = v 2 := one_mul _
  have s3 : signed signX v 3 = v 3 := one_mul _
  have s5 : signed signX v 5 = v 5 := one_mul _
  fin_cases i
  · show ∑ j, ∑ k, q.mirror.T 0 j k * signed signX v j * signed signX v k = -1 * ∑ j, ∑ k, q.T 0 j k * v j * v k
    rw [T_row0, T_row0]
    simp only [T_000, T_001, T_005, T_011, T_015, T_022, T_023, T_033, T_055, s0, s1, s2, s3, s5, Coef.mirror]
    ring
  · show ∑ j, ∑ k, q.mirror.T 1 j k * signed signX v j * signed signX v k = -1 * ∑ j, ∑ k, q.T 1 j k * v j * v k
    rw [T_row1, T_row1]
    simp only [T_100, T_101, T_105, T_111, T_115, T_122, T_123, T_133, T_155, s0, s1, s2, s3, s5, Coef.mirror]
    ring
  · show ∑ j, ∑ k, q.mirror.T 2 j k * signed signX v j * signed signX v k = 1 * ∑ j, ∑ k, q.T 2 j k * v j * v k
    rw [T_row2, T_row2]
    simp only [T_202, T_203, T_212, T_213, T_225, T_235, s0, s1, s2, s3, s5, Coef.mirror]
    ring
  · show ∑ j, ∑ k, q.mirror.T 3 j k * signed signX v j * signed signX v k = 1 * ∑ j, ∑ k, q.T 3 j k * v j * v k
    rw [T_row3, T_row3]
    simp only [T_302, T_303, T_312, T_313, T_325, T_335, s0, s1, s2, s3, s5, Coef.mirror]
    ring
  · show ∑ j, ∑ k, q.mirror.T 4 j k * signed signX v j * signed signX v k = 1 * ∑ j, ∑ k, q.T 4 j k * v j * v k
    rw [T_row4, T_row4]
    simp only [T_400, T_401, T_405, T_411, T_415, T_422, T_423, T_433, T_455, s0, s1, s2, s3, s5, Coef.mirror]
    ring
  · show ∑ j, ∑ k, q.mirror.T 5 j k * signed signX v j * signed signX v k = 1 * ∑ j, ∑ k, q.T 5 j k * v j * v k
    rw [T_row5, T_row5]
    ring

theorem second_signY (q : Coef) (v : V6) (i : Fin 6) :
    ∑ j, ∑ k, q.T i j k * signed signY v j * signed signY v k = signY i * ∑ j, ∑ k, q.T i j k * v j * v k := by
  have s0 : signed signY v 0 = v 0 := one_mul _
  have s1 : signed signY v 1 = v 1 := one_mul _
  have s2 : signed signY v 2 = -v 2 := neg_one_mul _
  have s3 : signed signY v 3 = -v 3 := neg_one_mul _
  have s5 : signed signY v 5 = v 5 := one_mul _
  fin_cases i
  · show ∑ j, ∑ k, q.T 0 j k * signed signY v j * signed signY v k = 1 * ∑ j, ∑ k, q.T 0 j k * v j * v k
    rw [T_row0, T_row0]
    simp only [s0, s1, s2, s3, s5]
    ring
  · show ∑ j, ∑ k, q.T 1 j k * signed signY v j * signed signY v k = 1 * ∑ j, ∑ k, q.T 1 j k * v j * v k
    rw [T_row1, T_row1]
    simp only [s0, s1, s2, s3, s5]
    ring
  · show ∑ j, ∑ k, q.T 2 j k * signed signY v j * signed signY v k = -1 * ∑ j, ∑ k, q.T 2 j k * v j * v k
    rw [T_row2, T_row2]
    simp only [s0, s1, s2, s3, s5]
    ring
  · show ∑ j, ∑ k, q.T 3 j k * signed signY v j * signed signY v k = -1 * ∑ j, ∑ k, q.T 3 j k * v j * v k
    rw [T_row3, T_row3]
    simp only [s0, s1, s2, s3, s5]
    ring
  · show ∑ j, ∑ k, q.T 4 j k * signed signY v j * signed signY v k = 1 * ∑ j, ∑ k, q.T 4 j k * v j * v k
    rw [T_row4, T_row4]
    simp only [s0, s1, s2, s3, s5]
    ring
  · show ∑ j, ∑ k, q.T 5 j k * signed signY v j * signed signY v k = 1 * ∑ j, ∑ k, q.T 5 j k * v j * v k
    rw [T_row5, T_row5]
    ring

theorem second_shift (q : Coef) (v : V6) (a : ℝ) (i : Fin 6) :
    ∑ j, ∑ k, q.T i j k * (if j = 4 then v j + a else v j) * (if k = 4 then v k + a else v k) = ∑ j, ∑ k, q.T i j k * v j * v k := by
  have key : ∀ w : V6, w 0 = v 0 → w 1 = v 1 → w 2 = v 2 → w 3 = v 3 → w 5 = v 5 →
      ∑ j, ∑ k, q.T i j k * w j * w k = ∑ j, ∑ k, q.T i j k * v j * v k := by
    intro w h0 h1 h2 h3 h5
    fin_cases i
    · show ∑ j, ∑ k, q.T 0 j k * w j * w k = ∑ j, ∑ k, q.T 0 j k * v j * v k
      rw [T_row0, T_row0, h0, h1, h2, h3, h5]
    · show ∑ j, ∑ k, q.T 1 j k * w j * w k = ∑ j, ∑ k, q.T 1 j k * v j * v k
      rw [T_row1, T_row1, h0, h1, h2, h3, h5]
    · show ∑ j, ∑ k, q.T 2 j k * w j * w k = ∑ j, ∑ k, q.T 2 j k * v j * v k
      rw [T_row2, T_row2, h0, h1, h2, h3, h5]
    · show ∑ j, ∑ k, q.T 3 j k * w j * w k = ∑ j, ∑ k, q.T 3 j k * v j * v k
      rw [T_row3, T_row3, h0, h1, h2, h3, h5]
    · show ∑ j, ∑ k, q.T 4 j k * w j * w k = ∑ j, ∑ k, q.T 4 j k * v j * v k
      rw [T_row4, T_row4, h0, h1, h2, h3, h5]
    · show ∑ j, ∑ k, q.T 5 j k * w j * w k = ∑ j, ∑ k, q.T 5 j k * v j * v k
      rw [T_row5, T_row5]
  exact key (fun r => if r = 4 then v r + a else v r) rfl rfl rfl rfl rfl

/-- The map of the mirrored magnet. -/
theorem transferMap_signX (z L θ k1 k2 g : ℝ) (order : ℕ) (v : V6) :
    transferMap z L (-θ) k1 (-k2) g order (signed signX v) = signed signX (transferMap z L θ k1 k2 g order v) := by
  unfold transferMap
  dsimp only
  rw [mulVec_signed (firstOrder_signX z L θ k1 g)]
  split_ifs
  · funext i
    unfold secondOrder
    rw [coef_mirror, second_signX]
    unfold signed
    ring
  · rfl

/-- Magnets are symmetric about their plane. -/
theorem transferMap_signY (z L θ k1 k2 g : ℝ) (order : ℕ) (v : V6) :
    transferMap z L θ k1 k2 g order (signed signY v) = signed signY (transferMap z L θ k1 k2 g order v) := by
  unfold transferMap
  dsimp only
  rw [mulVec_signed (firstOrder_signY z L θ k1 g)]
  split_ifs
  · funext i
    unfold secondOrder
    rw [second_signY]
    unfold signed
    ring
  · rfl

/-- The map does not depend on the longitudinal position, which it carries along. -/
theorem transferMap_shift (z L θ k1 k2 g : ℝ) (order : ℕ) (v : V6) (a : ℝ) :
    transferMap z L θ k1 k2 g order (fun r => if r = 4 then v r + a else v r) =
      fun r => if r = 4 then transferMap z L θ k1 k2 g order v r + a else transferMap z L θ k1 k2 g order v r := by
  have h1 : firstOrder z L θ k1 g *ᵥ (fun r => if r = 4 then v r + a else v r) =
      fun r => if r = 4 then (firstOrder z L θ k1 g *ᵥ v) r + a else (firstOrder z L θ k1 g *ᵥ v) r := by
    funext i
    unfold firstOrder
    fin_cases i <;> simp [mulVec, dotProduct, Fin.sum_univ_succ]
    ring
  unfold transferMap
  dsimp only
  rw [h1]
  split_ifs
  · funext i
    unfold secondOrder
    rw [second_shift]
    by_cases h4 : i = 4
    · simp only [if_pos h4]
      ring
    · simp only [if_neg h4]
  · rfl

end WakeT.TransferMatrix
