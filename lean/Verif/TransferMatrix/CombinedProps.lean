import Verif.TransferMatrix.Combined
import Mathlib.Analysis.Calculus.MeanValue

/-! # Second-order motion and composition in combined-function magnets: C78, C104 -/

set_option linter.unusedSectionVars false
set_option linter.unusedSimpArgs false

namespace WakeT.TransferMatrix

open Matrix

/-! ### C104: equations of motion at second order in any magnet -/

/-- **C104** What order 2 adds to order 1 starts at zero and is driven by the quadratic part
of the equations of motion of a combined-function magnet, component by component.

The full claim is this statement without `hres`, `hf` and `h3`; it is false for the remaining
magnets (`second_order_motion_violated`, `second_order_resonance_violated`,
`second_order_compose_violated`). The hypotheses exclude, respectively, magnets with a
sextupole gradient on the resonance `5 k1 + h² = 0` (limits taken at the wrong point), the
effect of `Jf` (missing factor 1/4) and the effect of `J3` (wrong formula). -/
theorem second_order_motion_partial (z L theta k1 k2 gamma : ℝ) (v : V6) (i : Fin 6)
    (hres : k2 = 0 ∨ 5 * k1 + (theta / L) ^ 2 ≠ 0 ∨ (k1 = 0 ∧ theta / L = 0) ∨ Planar v)
    (hf : theta / L * k1 * k2 = 0 ∨ Planar v ∨ (v 5 = 0 ∧ i ≠ 4) ∨ i = 0 ∨ i = 1)
    (h3 : theta / L * (k2 + 2 * (theta / L) * k1) = 0 ∨ k1 + (theta / L) ^ 2 = 0 ∨ v 5 = 0 ∨
      i ≠ 4) :
    let extra := fun z => transferMap z L theta k1 k2 gamma 2 v -
      transferMap z L theta k1 k2 gamma 1 v
    extra 0 i = 0 ∧
    HasDerivAt (fun z => extra z i)
      ((generator (theta / L) k1 (beta gamma) (igamma2 gamma) *ᵥ extra z) i +
        quadraticMagnet (theta / L) k1 k2 (beta gamma) (igamma2 gamma)
          (transferMap z L theta k1 k2 gamma 1 v) i) z := by
  simp only [transferMap_two, transferMap_one, add_sub_cancel_left]
  exact ⟨congrFun (quad_at_zero L theta k1 k2 gamma v) i,
    quad_combined z L theta k1 k2 gamma v i ⟨hres, hf, h3⟩⟩

/-- The hypotheses are met by a combined-function bend with all fields for the horizontal
motion of any particle, and for both planes on energy. -/
example (v w : V6) (hw : w 5 = 0) :
    Covered 1 2 3 v 0 ∧ Covered 1 2 3 v 1 ∧ Covered 1 2 3 w 2 ∧ Covered 1 2 3 w 3 := by
  refine ⟨?_, ?_, ?_, ?_⟩
  · exact ⟨Or.inr (Or.inl (by norm_num)), by simp, by simp⟩
  · exact ⟨Or.inr (Or.inl (by norm_num)), by simp, by simp⟩
  all_goals
    exact ⟨Or.inr (Or.inl (by norm_num)), Or.inr (Or.inr (Or.inl ⟨hw, by decide⟩)),
      Or.inr (Or.inr (Or.inl hw))⟩

/-! ### C78: composition -/

theorem linear_zero {k : ℝ} {x p : ℝ → ℝ} (hx : ∀ t, HasDerivAt x (p t) t)
    (hp : ∀ t, HasDerivAt p (-k * x t) t) (hx0 : x 0 = 0) (hp0 : p 0 = 0) (t : ℝ) :
    x t = 0 ∧ p t = 0 := by
  have hs := hasDerivAt_sinK k
  have hc := hasDerivAt_cosK k
  have hA : ∀ t, HasDerivAt (fun t => cosK k t * x t - sinK k t * p t) 0 t := by
    intro t
    refine (((hc t).fun_mul (hx t)).fun_sub ((hs t).fun_mul (hp t))).congr_deriv ?_
    ring
  have hB : ∀ t, HasDerivAt (fun t => k * (sinK k t * x t) + cosK k t * p t) 0 t := by
    intro t
    refine ((((hs t).fun_mul (hx t)).const_mul k).fun_add ((hc t).fun_mul (hp t))).congr_deriv ?_
    ring
  have eA := is_const_of_deriv_eq_zero (fun t => (hA t).differentiableAt) (fun t => (hA t).deriv) t 0
  have eB := is_const_of_deriv_eq_zero (fun t => (hB t).differentiableAt) (fun t => (hB t).deriv) t 0
  simp [hx0, hp0] at eA eB
  have q := cosK_sq k t
  constructor
  · linear_combination cosK k t * eA + sinK k t * eB - x t * q
  · linear_combination cosK k t * eB - k * sinK k t * eA - p t * q

theorem Covered.flow {h k1 k2 : ℝ} {v : V6} {i : Fin 6} (hc : Covered h k1 k2 v i)
    (z L theta kk gamma : ℝ) : Covered h k1 k2 (firstOrder z L theta kk gamma *ᵥ v) i := by
  have hp : Planar v → Planar (firstOrder z L theta kk gamma *ᵥ v) := by
    rintro ⟨h2, h3⟩
    rw [firstOrder_mulVec]
    constructor <;> simp [h2, h3]
  have h5 : (firstOrder z L theta kk gamma *ᵥ v) 5 = v 5 := by
    rw [firstOrder_mulVec]; simp
  exact ⟨hc.res.imp id (Or.imp id (Or.imp id hp)), by rw [h5]; exact hc.jf.imp id (Or.imp hp id),
    by rw [h5]; exact hc.j3⟩

/-- How far the map over `z1 + t` is from the composition, at second order. -/
noncomputable def defect (z1 L theta k1 k2 gamma : ℝ) (v : V6) (t : ℝ) : V6 :=
  quad (z1 + t) L theta k1 k2 gamma v -
    (firstOrder t L theta k1 gamma *ᵥ quad z1 L theta k1 k2 gamma v +
      quad t L theta k1 k2 gamma (firstOrder z1 L theta k1 gamma *ᵥ v))

theorem defect_deriv (z1 L theta k1 k2 gamma : ℝ) (hL : L ≠ 0) (hg : GammaOk gamma) (v : V6)
    (i : Fin 6) (hc : Covered (theta / L) k1 k2 v i) (t : ℝ) :
    HasDerivAt (fun t => defect z1 L theta k1 k2 gamma v t i)
      ((generator (theta / L) k1 (beta gamma) (igamma2 gamma) *ᵥ
        defect z1 L theta k1 k2 gamma v t) i) t := by
  have h1 := (quad_combined (z1 + t) L theta k1 k2 gamma v i hc).comp_const_add z1 t
  have h2 := (hasDerivAt_pi.mp (first_order_motion t L theta k1 gamma hL hg
    (quad z1 L theta k1 k2 gamma v))) i
  have h3 := quad_combined t L theta k1 k2 gamma _ i (hc.flow z1 L theta k1 gamma)
  refine (h1.fun_sub (h2.fun_add h3)).congr_deriv ?_
  rw [first_order_compose z1 t L theta k1 gamma hL hg, ← Matrix.mulVec_mulVec, defect,
    Matrix.mulVec_sub, Matrix.mulVec_add]
  simp only [Pi.sub_apply, Pi.add_apply]
  ring

theorem defect_zero (z1 L theta k1 k2 gamma : ℝ) (hL : L ≠ 0) (hg : GammaOk gamma) (v : V6) :
    defect z1 L theta k1 k2 gamma v 0 = 0 := by
  simp [defect, quad_at_zero, first_order_zero L theta k1 gamma hL hg]

theorem defect_eq_zero (z1 L theta k1 k2 gamma : ℝ) (hL : L ≠ 0) (hg : GammaOk gamma) (v : V6)
    (i : Fin 6) (hc : Covered (theta / L) k1 k2 v i) (t : ℝ) :
    defect z1 L theta k1 k2 gamma v t i = 0 := by
  have h5 : ∀ t, defect z1 L theta k1 k2 gamma v t 5 = 0 := by
    intro t
    simp only [defect, Pi.sub_apply, Pi.add_apply, quad_five, firstOrder_mulVec]
    simp [quad_five]
  have h0 := defect_zero z1 L theta k1 k2 gamma hL hg v
  have g := fun i hc t => (defect_deriv z1 L theta k1 k2 gamma hL hg v i hc t)
  have e : ∀ w : V6, generator (theta / L) k1 (beta gamma) (igamma2 gamma) *ᵥ w =
      ![w 1, -(k1 + (theta / L) ^ 2) * w 0 + theta / L / beta gamma * w 5, w 3, k1 * w 2,
        theta / L / beta gamma * w 0 + -igamma2 gamma / beta gamma ^ 2 * w 5, 0] := by
    intro w
    funext i
    fin_cases i <;>
      simp [generator, Matrix.mulVec, dotProduct, Fin.sum_univ_six]
  simp only [e, h5] at g
  have hxp : Covered (theta / L) k1 k2 v 0 → ∀ t, defect z1 L theta k1 k2 gamma v t 0 = 0 ∧
      defect z1 L theta k1 k2 gamma v t 1 = 0 := by
    intro hc t
    have c1 : Covered (theta / L) k1 k2 v 1 := ⟨hc.res, by simp, by simp⟩
    refine linear_zero (k := k1 + (theta / L) ^ 2)
      (x := fun t => defect z1 L theta k1 k2 gamma v t 0)
      (p := fun t => defect z1 L theta k1 k2 gamma v t 1) (fun t => ?_) (fun t => ?_) ?_ ?_ t
    · simpa using g 0 hc t
    · simpa using g 1 c1 t
    · simp [h0]
    · simp [h0]
  have hyr : Covered (theta / L) k1 k2 v 2 → Covered (theta / L) k1 k2 v 3 → ∀ t,
      defect z1 L theta k1 k2 gamma v t 2 = 0 ∧ defect z1 L theta k1 k2 gamma v t 3 = 0 := by
    intro hc c1 t
    refine linear_zero (k := -k1)
      (x := fun t => defect z1 L theta k1 k2 gamma v t 2)
      (p := fun t => defect z1 L theta k1 k2 gamma v t 3) (fun t => ?_) (fun t => ?_) ?_ ?_ t
    · simpa using g 2 hc t
    · simpa using g 3 c1 t
    · simp [h0]
    · simp [h0]
  have hi : ∀ i : Fin 6, i = 0 ∨ i = 1 ∨ i = 2 ∨ i = 3 ∨ i = 4 ∨ i = 5 := by decide
  rcases hi i with rfl | rfl | rfl | rfl | rfl | rfl
  · exact (hxp hc t).1
  · exact (hxp ⟨hc.res, by simp, by simp⟩ t).2
  · refine (hyr hc ⟨hc.res, ?_, by simp⟩ t).1
    simpa using hc.jf
  · refine (hyr ⟨hc.res, ?_, by simp⟩ hc t).2
    simpa using hc.jf
  · have c0 : Covered (theta / L) k1 k2 v 0 := ⟨hc.res, by simp, by simp⟩
    have d4 : ∀ t, HasDerivAt (fun t => defect z1 L theta k1 k2 gamma v t 4) 0 t := by
      intro t
      have := g 4 hc t
      simpa [(hxp c0 t).1] using this
    have := is_const_of_deriv_eq_zero (fun t => (d4 t).differentiableAt)
      (fun t => (d4 t).deriv) t 0
    rw [this, h0]; rfl
  · exact h5 t

/-- **C78** Composition of the second-order maps in combined-function magnets, component by
component and ray by ray. The full claim is `second_order_compose_partial` without its
hypothesis; this is the part of it that holds. -/
theorem second_order_compose_magnet_partial (z1 z2 L theta k1 k2 gamma : ℝ) (hL : L ≠ 0)
    (hg : GammaOk gamma) (v : V6) (i : Fin 6)
    (hres : k2 = 0 ∨ 5 * k1 + (theta / L) ^ 2 ≠ 0 ∨ (k1 = 0 ∧ theta / L = 0) ∨ Planar v)
    (hf : theta / L * k1 * k2 = 0 ∨ Planar v ∨ (v 5 = 0 ∧ i ≠ 4) ∨ i = 0 ∨ i = 1)
    (h3 : theta / L * (k2 + 2 * (theta / L) * k1) = 0 ∨ k1 + (theta / L) ^ 2 = 0 ∨ v 5 = 0 ∨
      i ≠ 4) :
    AgreeToSecondOrderAt
      (fun v => transferMap z2 L theta k1 k2 gamma 2 (transferMap z1 L theta k1 k2 gamma 2 v))
      (transferMap (z1 + z2) L theta k1 k2 gamma 2) v i := by
  have h := defect_eq_zero z1 L theta k1 k2 gamma hL hg v i ⟨hres, hf, h3⟩ z2
  simp only [defect, Pi.sub_apply, Pi.add_apply, sub_eq_zero] at h
  refine ⟨cross z2 L theta k1 k2 gamma (firstOrder z1 L theta k1 gamma *ᵥ v)
      (quad z1 L theta k1 k2 gamma v) i,
    quad z2 L theta k1 k2 gamma (quad z1 L theta k1 k2 gamma v) i, fun ε => ?_⟩
  dsimp only
  rw [map_twice, transferMap_two, quad_smul, Matrix.mulVec_smul,
    first_order_compose z1 z2 L theta k1 gamma hL hg, ← Matrix.mulVec_mulVec]
  simp only [Pi.add_apply, Pi.smul_apply, smul_eq_mul, h]

/-! ### Where the code is wrong -/

theorem quad_of_agreeAt (z1 z2 L theta k1 k2 gamma : ℝ) (hL : L ≠ 0) (hg : GammaOk gamma)
    (v : V6) (i : Fin 6)
    (h : AgreeToSecondOrderAt
      (fun v => transferMap z2 L theta k1 k2 gamma 2 (transferMap z1 L theta k1 k2 gamma 2 v))
      (transferMap (z1 + z2) L theta k1 k2 gamma 2) v i) :
    quad (z1 + z2) L theta k1 k2 gamma v i =
      (firstOrder z2 L theta k1 gamma *ᵥ quad z1 L theta k1 k2 gamma v) i +
        quad z2 L theta k1 k2 gamma (firstOrder z1 L theta k1 gamma *ᵥ v) i := by
  obtain ⟨w3, w4, hw⟩ := h
  have key : ∀ ε : ℝ, _ := fun ε => (congrFun (map_twice z1 z2 L theta k1 k2 gamma v ε).symm
    i).trans (hw ε)
  simp only [transferMap_two, quad_smul, Matrix.mulVec_smul,
      first_order_compose z1 z2 L theta k1 gamma hL hg, Matrix.mulVec_mulVec, Pi.add_apply,
      Pi.smul_apply, smul_eq_mul] at key
  have h1 := key 1
  have h2 := key (-1)
  have h3 := key 2
  have h4 := key (-2)
  linarith

theorem beta_ne_zero {gamma : ℝ} (hg : GammaOk gamma) : beta gamma ≠ 0 := by
  rcases hg with rfl | hg
  · simp [beta, igamma2]
  · have : (0 : ℝ) < 1 - 1 / (gamma * gamma) := by
      rw [sub_pos, div_lt_one (by nlinarith)]; nlinarith
    unfold beta igamma2
    rw [if_pos (by linarith)]
    exact (Real.sqrt_pos.mpr this).ne'

theorem bend_J23 (z gamma : ℝ) :
    let q := coef z Real.pi Real.pi 0 1 gamma
    q.J2 = (3 * z - 4 * sinK 1 z + sinK 1 z * cosK 1 z) / 2 ∧
    q.J3 = (15 * z - 45 / 2 * sinK 1 z + 9 * sinK 1 z * cosK 1 z
      - 3 / 2 * sinK 1 z * cosK 1 z * cosK 1 z + sinK 1 z * sinK 1 z * sinK 1 z) / 6 := by
  have hpi := Real.pi_pos.ne'
  have h1 : csqrt 1 ≠ 0 := (csqrt_ne_zero 1).mpr one_ne_zero
  constructor <;> simp [coef, hpi, h1]

/-- **C78, C104, violated by the formula for `J3`.** In a bend with a sextupole gradient the
longitudinal position of an off-energy particle on the axis differs at second order between
one step and two. -/
theorem second_order_motion_violated (gamma : ℝ) (hg : GammaOk gamma) :
    ¬ AgreeToSecondOrderAt
      (fun v => transferMap (Real.pi / 2) Real.pi Real.pi 0 1 gamma 2
        (transferMap (Real.pi / 2) Real.pi Real.pi 0 1 gamma 2 v))
      (transferMap (Real.pi / 2 + Real.pi / 2) Real.pi Real.pi 0 1 gamma 2)
      ![0, 0, 0, 0, 0, 1] 4 := by
  intro h
  have hpi := Real.pi_pos
  have h1 := quad_of_agreeAt _ _ _ _ _ _ _ hpi.ne' hg _ _ h
  obtain ⟨t1, t2, t3, t4⟩ := trig_values
  obtain ⟨a2, a3⟩ := bend_J23 (Real.pi / 2) gamma
  obtain ⟨b2, b3⟩ := bend_J23 Real.pi gamma
  have hβ := beta_ne_zero hg
  rw [firstOrder_mulVec, firstOrder_mulVec] at h1
  simp only [add_halves] at h1
  simp only [quad, secondOrder, T_row4, T_row0, T_row1, T_row5, T_433, T_422, T_033, T_133, T_423, T_411,
    T_400, T_401, T_405, T_415, T_455, T_000, T_001, T_011, T_005, T_015, T_055, T_022, T_023,
    T_100, T_101, T_111, T_105, T_115, T_155, T_122, T_123,
    coef_dx, coef_J1, coef_β, coef_h, coef_L, coef_cx, coef_sx,
    coef_cy, coef_sy, coef_kx2, coef_K1, coef_K2, coef_ig, coef_khk, a2, a3, b2, b3] at h1
  simp [hpi.ne', t1, t2, t3, t4, dK, eK] at h1
  field_simp at h1
  ring_nf at h1
  linarith

theorem resonance_J (z gamma : ℝ) :
    let q := coef z 1 (√5) (-1) 1 gamma
    q.Js = z * z * z / 6 ∧ q.Jd = z * z * z * z / 24 := by
  have h5 : √5 * √5 = (5 : ℝ) := Real.mul_self_sqrt (by norm_num)
  constructor <;> simp [coef, h5] <;> norm_num

theorem trig_values_four : cosK 4 (Real.pi / 2) = -1 ∧ sinK 4 (Real.pi / 2) = 0 ∧
    cosK 4 Real.pi = 1 ∧ sinK 4 Real.pi = 0 := by
  have h1 : csqrt 4 = 2 := by
    simp only [csqrt]
    rw [if_pos (by norm_num), show (4 : ℝ) = 2 ^ 2 by norm_num, Real.sqrt_sq (by norm_num)]
    norm_num
  refine ⟨?_, ?_, ?_, ?_⟩
  · simp only [cosK, h1]
    rw [show ((Real.pi / 2 : ℝ) : ℂ) * 2 = (Real.pi : ℝ) by push_cast; ring,
      ← Complex.ofReal_cos, Real.cos_pi, Complex.ofReal_re]
  · simp only [sinK, h1]
    rw [show (2 : ℂ) * ((Real.pi / 2 : ℝ) : ℂ) = (Real.pi : ℝ) by push_cast; ring,
      ← Complex.ofReal_sin, Real.sin_pi]; simp
  · simp only [cosK, h1]
    rw [show (Real.pi : ℂ) * 2 = ((2 * Real.pi : ℝ) : ℂ) by push_cast; ring,
      ← Complex.ofReal_cos, Real.cos_two_pi, Complex.ofReal_re]
  · simp only [sinK, h1]
    rw [show (2 : ℂ) * (Real.pi : ℂ) = ((2 * Real.pi : ℝ) : ℂ) by push_cast; ring,
      ← Complex.ofReal_sin, Real.sin_two_pi]; simp

/-- **C78, C104, violated on the resonance.** In a magnet whose horizontal focusing is four
times the vertical one, the limits used for the coupling coefficients are those of a drift:
a particle with a vertical angle only gets the wrong horizontal offset. -/
theorem second_order_resonance_violated (gamma : ℝ) (hg : GammaOk gamma) :
    ¬ AgreeToSecondOrderAt
      (fun v => transferMap (Real.pi / 2) 1 (√5) (-1) 1 gamma 2
        (transferMap (Real.pi / 2) 1 (√5) (-1) 1 gamma 2 v))
      (transferMap (Real.pi / 2 + Real.pi / 2) 1 (√5) (-1) 1 gamma 2)
      ![0, 0, 0, 1, 0, 0] 0 := by
  intro h
  have hpi := Real.pi_gt_three
  have h1 := quad_of_agreeAt _ _ _ _ _ _ _ one_ne_zero hg _ _ h
  obtain ⟨t1, t2, t3, t4⟩ := trig_values
  obtain ⟨u1, u2, u3, u4⟩ := trig_values_four
  obtain ⟨a2, a3⟩ := resonance_J (Real.pi / 2) gamma
  obtain ⟨b2, b3⟩ := resonance_J Real.pi gamma
  have h5 : √5 * √5 = (5 : ℝ) := Real.mul_self_sqrt (by norm_num)
  have h4 : (-1 : ℝ) + 5 = 4 := by norm_num
  rw [firstOrder_mulVec, firstOrder_mulVec] at h1
  simp only [add_halves] at h1
  simp only [quad, secondOrder, T_row4, T_row0, T_row1, T_row5, T_433, T_422, T_033, T_133, T_423, T_411,
    T_400, T_401, T_405, T_415, T_455, T_000, T_001, T_011, T_005, T_015, T_055, T_022, T_023,
    T_100, T_101, T_111, T_105, T_115, T_155, T_122, T_123,
    coef_dx, coef_J1, coef_β, coef_h, coef_L, coef_cx, coef_sx,
    coef_cy, coef_sy, coef_kx2, coef_K1, coef_K2, coef_ig, coef_khk, a2, a3, b2, b3] at h1
  simp [t1, t2, t3, t4, u1, u2, u3, u4, dK, eK, h5, h4] at h1
  have p4 : (3 : ℝ) ^ 4 < Real.pi ^ 4 := by gcongr
  ring_nf at h1 p4
  linarith

end WakeT.TransferMatrix
