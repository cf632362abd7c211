import Verif.TransferMatrix.SecondOrder
import Mathlib.Analysis.Real.Pi.Bounds

/-! # Properties of the second-order maps: C43, C78, C79 -/

set_option linter.unusedSectionVars false

namespace WakeT.TransferMatrix

open Matrix

theorem transferMap_two (z L theta k1 k2 gamma : ℝ) (v : V6) :
    transferMap z L theta k1 k2 gamma 2 v =
      firstOrder z L theta k1 gamma *ᵥ v + quad z L theta k1 k2 gamma v := by
  simp only [transferMap, if_pos]
  rfl

theorem transferMap_one (z L theta k1 k2 gamma : ℝ) (v : V6) :
    transferMap z L theta k1 k2 gamma 1 v = firstOrder z L theta k1 gamma *ᵥ v := by
  simp [transferMap]

/-- Polarised second-order part. -/
noncomputable def cross (z L theta k1 k2 gamma : ℝ) (v w : V6) : V6 := fun i =>
  ∑ j, ∑ k, secondOrder z L theta k1 k2 gamma i j k * (v j * w k + w j * v k)

theorem quad_line (z L theta k1 k2 gamma : ℝ) (v w : V6) (ε : ℝ) :
    quad z L theta k1 k2 gamma (ε • v + ε ^ 2 • w) =
      ε ^ 2 • quad z L theta k1 k2 gamma v + ε ^ 3 • cross z L theta k1 k2 gamma v w +
        ε ^ 4 • quad z L theta k1 k2 gamma w := by
  funext i
  simp only [quad, cross, Pi.add_apply, Pi.smul_apply, smul_eq_mul, Finset.mul_sum,
    ← Finset.sum_add_distrib]
  refine Finset.sum_congr rfl fun j _ => Finset.sum_congr rfl fun k _ => ?_
  ring

theorem quad_smul (z L theta k1 k2 gamma : ℝ) (v : V6) (ε : ℝ) :
    quad z L theta k1 k2 gamma (ε • v) = ε ^ 2 • quad z L theta k1 k2 gamma v := by
  funext i
  simp only [quad, Pi.smul_apply, smul_eq_mul, Finset.mul_sum]
  refine Finset.sum_congr rfl fun j _ => Finset.sum_congr rfl fun k _ => ?_
  ring

/-- Two maps in a row, expanded on a ray. -/
theorem map_twice (z1 z2 L theta k1 k2 gamma : ℝ) (v : V6) (ε : ℝ) :
    transferMap z2 L theta k1 k2 gamma 2 (transferMap z1 L theta k1 k2 gamma 2 (ε • v)) =
      ε • (firstOrder z2 L theta k1 gamma *ᵥ (firstOrder z1 L theta k1 gamma *ᵥ v)) +
      ε ^ 2 • (firstOrder z2 L theta k1 gamma *ᵥ quad z1 L theta k1 k2 gamma v +
        quad z2 L theta k1 k2 gamma (firstOrder z1 L theta k1 gamma *ᵥ v)) +
      ε ^ 3 • cross z2 L theta k1 k2 gamma (firstOrder z1 L theta k1 gamma *ᵥ v)
        (quad z1 L theta k1 k2 gamma v) +
      ε ^ 4 • quad z2 L theta k1 k2 gamma (quad z1 L theta k1 k2 gamma v) := by
  rw [transferMap_two, transferMap_two, quad_smul, Matrix.mulVec_smul, quad_line,
    Matrix.mulVec_add, Matrix.mulVec_smul, Matrix.mulVec_smul, smul_add]
  abel

theorem agree_of_quad (z1 z2 L theta k1 k2 gamma : ℝ) (hL : L ≠ 0) (hg : GammaOk gamma)
    (h : ∀ v, quad (z1 + z2) L theta k1 k2 gamma v =
      firstOrder z2 L theta k1 gamma *ᵥ quad z1 L theta k1 k2 gamma v +
        quad z2 L theta k1 k2 gamma (firstOrder z1 L theta k1 gamma *ᵥ v)) :
    AgreeToSecondOrder
      (fun v => transferMap z2 L theta k1 k2 gamma 2 (transferMap z1 L theta k1 k2 gamma 2 v))
      (transferMap (z1 + z2) L theta k1 k2 gamma 2) := by
  intro v
  refine ⟨cross z2 L theta k1 k2 gamma (firstOrder z1 L theta k1 gamma *ᵥ v)
      (quad z1 L theta k1 k2 gamma v),
    quad z2 L theta k1 k2 gamma (quad z1 L theta k1 k2 gamma v), fun ε => ?_⟩
  dsimp only
  rw [map_twice, ← h, transferMap_two, quad_smul, Matrix.mulVec_smul,
    first_order_compose z1 z2 L theta k1 gamma hL hg, Matrix.mulVec_mulVec]

theorem quad_of_agree (z1 z2 L theta k1 k2 gamma : ℝ) (hL : L ≠ 0) (hg : GammaOk gamma)
    (h : AgreeToSecondOrder
      (fun v => transferMap z2 L theta k1 k2 gamma 2 (transferMap z1 L theta k1 k2 gamma 2 v))
      (transferMap (z1 + z2) L theta k1 k2 gamma 2)) (v : V6) (i : Fin 6) :
    quad (z1 + z2) L theta k1 k2 gamma v i =
      (firstOrder z2 L theta k1 gamma *ᵥ quad z1 L theta k1 k2 gamma v) i +
        quad z2 L theta k1 k2 gamma (firstOrder z1 L theta k1 gamma *ᵥ v) i := by
  obtain ⟨w3, w4, hw⟩ := h v
  have key : ∀ ε : ℝ, _ := fun ε => congrFun ((map_twice z1 z2 L theta k1 k2 gamma v ε).symm.trans
    (hw ε)) i
  simp only [transferMap_two, quad_smul, Matrix.mulVec_smul,
      first_order_compose z1 z2 L theta k1 gamma hL hg, Matrix.mulVec_mulVec, Pi.add_apply,
      Pi.smul_apply, smul_eq_mul] at key
  have h1 := key 1
  have h2 := key (-1)
  have h3 := key 2
  have h4 := key (-2)
  linarith

/-! ### C78: composition at second order -/

/-- **C78, straight elements.** Drifts, quadrupoles, sextupoles and their superpositions:
two second-order maps in a row are the map over the total length, up to terms of third
order. -/
theorem second_order_compose_straight (z1 z2 L k1 k2 gamma : ℝ) (hL : L ≠ 0)
    (hg : GammaOk gamma) :
    AgreeToSecondOrder
      (fun v => transferMap z2 L 0 k1 k2 gamma 2 (transferMap z1 L 0 k1 k2 gamma 2 v))
      (transferMap (z1 + z2) L 0 k1 k2 gamma 2) := by
  refine agree_of_quad _ _ _ _ _ _ _ hL hg fun v => ?_
  by_cases hk : k1 = 0
  · subst hk
    exact quad_compose_free _ _ _ _ _ _
  · exact quad_compose_focus _ _ _ _ _ _ hk _

/-- **C78, bends without gradients.** -/
theorem second_order_compose_bend (z1 z2 L theta gamma : ℝ) (hL : L ≠ 0) (hg : GammaOk gamma) :
    AgreeToSecondOrder
      (fun v => transferMap z2 L theta 0 0 gamma 2 (transferMap z1 L theta 0 0 gamma 2 v))
      (transferMap (z1 + z2) L theta 0 0 gamma 2) :=
  agree_of_quad _ _ _ _ _ _ _ hL hg fun _ => quad_compose_bend _ _ _ _ _ _

/-- **C78** The full claim is this statement without the hypothesis `hcase`; it is false for
combined-function magnets (`second_order_compose_violated`). -/
theorem second_order_compose_partial (z1 z2 L theta k1 k2 gamma : ℝ) (hL : L ≠ 0)
    (hg : GammaOk gamma) (hcase : theta = 0 ∨ (k1 = 0 ∧ k2 = 0)) :
    AgreeToSecondOrder
      (fun v => transferMap z2 L theta k1 k2 gamma 2 (transferMap z1 L theta k1 k2 gamma 2 v))
      (transferMap (z1 + z2) L theta k1 k2 gamma 2) := by
  rcases hcase with rfl | ⟨rfl, rfl⟩
  · exact second_order_compose_straight _ _ _ _ _ _ hL hg
  · exact second_order_compose_bend _ _ _ _ _ hL hg

/-- Non-vacuity of the notion: maps that differ at second order do not agree. -/
example : ¬ AgreeToSecondOrder (fun v => v) (fun v => v + fun _ => v 0 * v 0) := by
  intro h
  obtain ⟨w3, w4, hw⟩ := h ![1, 0, 0, 0, 0, 0]
  have h1 := congrFun (hw 1) 0
  have h2 := congrFun (hw (-1)) 0
  have h3 := congrFun (hw 2) 0
  simp [vecHead] at h1 h2 h3
  linarith

/-- Values at an angle of a quarter and of half a turn. -/
theorem trig_values : cosK 1 (Real.pi / 2) = 0 ∧ sinK 1 (Real.pi / 2) = 1 ∧
    cosK 1 Real.pi = -1 ∧ sinK 1 Real.pi = 0 := by
  have h1 : csqrt 1 = 1 := by simp [csqrt]
  refine ⟨?_, ?_, ?_, ?_⟩
  · simp only [cosK, h1, mul_one]
    rw [← Complex.ofReal_cos, Real.cos_pi_div_two, Complex.ofReal_re]
  · simp only [sinK, h1, one_mul, div_one]
    rw [← Complex.ofReal_sin, Real.sin_pi_div_two, Complex.ofReal_re]; simp
  · simp only [cosK, h1, mul_one]
    rw [← Complex.ofReal_cos, Real.cos_pi, Complex.ofReal_re]
  · simp only [sinK, h1, one_mul, div_one]
    rw [← Complex.ofReal_sin, Real.sin_pi, Complex.ofReal_re]; simp

theorem combined_J (z L : ℝ) (hL : L ≠ 0) (gamma : ℝ) :
    let q := coef z L L (-1) 1 gamma
    q.Js = -(cosK 1 z * sinK 1 z - z) / 4 ∧
      q.Jd = -(1 / 2 * sinK 1 z * sinK 1 z - z * z / 2) / 4 ∧
      q.Jf = -((z - sinK 1 z * cosK 1 z) - z * z * z / 6) / 4 := by
  have h0 : (csqrt 0) = 0 := (csqrt_eq_zero 0).mpr rfl
  refine ⟨?_, ?_, ?_⟩ <;> simp [coef, hL, h0] <;> ring

/-- **C78, violated for combined-function magnets.** In a bend with quadrupole and
sextupole gradients the composition law fails at second order (line 136 of
transfer_matrices.py lacks a factor 1/4): for every reference energy there are such an
element and a length that the code treats differently in one step and in two. -/
theorem second_order_compose_violated (gamma : ℝ) (hg : 1 < gamma) :
    ¬ AgreeToSecondOrder
      (fun v => transferMap (Real.pi / 2) Real.pi Real.pi (-1) 1 gamma 2
        (transferMap (Real.pi / 2) Real.pi Real.pi (-1) 1 gamma 2 v))
      (transferMap (Real.pi / 2 + Real.pi / 2) Real.pi Real.pi (-1) 1 gamma 2) := by
  intro h
  have hpi := Real.pi_pos
  have h1 := quad_of_agree _ _ _ _ _ _ _ hpi.ne' (Or.inr hg) h ![0, 0, 0, 1, 0, 0] 4
  obtain ⟨t1, t2, t3, t4⟩ := trig_values
  obtain ⟨a1, a2, a3⟩ := combined_J (Real.pi / 2) Real.pi hpi.ne' gamma
  obtain ⟨b1, b2, b3⟩ := combined_J (Real.pi / 2 + Real.pi / 2) Real.pi hpi.ne' gamma
  have hβ : beta gamma ≠ 0 := by
    have : (0 : ℝ) < 1 - 1 / (gamma * gamma) := by
      rw [sub_pos, div_lt_one (by nlinarith)]; nlinarith
    unfold beta igamma2
    rw [if_pos (by linarith)]
    exact (Real.sqrt_pos.mpr this).ne'
  rw [firstOrder_mulVec, firstOrder_mulVec] at h1
  simp only [add_halves] at b1 b2 b3 h1
  simp only [quad, secondOrder, T_row4, T_row0, T_row1, T_row5, T_433, T_422, T_033, T_133, T_423, T_411,
    T_400, T_401, T_405, T_415, T_455, T_000, T_001, T_011, T_005, T_015, T_055, T_022, T_023,
    T_100, T_101, T_111, T_105, T_115, T_155, T_122, T_123,
    coef_dx, coef_J1, coef_β, coef_h, coef_L, coef_cx, coef_sx,
    coef_cy, coef_sy, coef_kx2, coef_K1, coef_K2, coef_ig, coef_khk, a1, a2, a3, b2, b3] at h1
  simp [hpi.ne', t1, t2, t3, t4, dK, eK] at h1
  field_simp at h1
  ring_nf at h1
  linarith

/-! ### C43: second-order drifts -/

/-- **C43** For drifts the second-order maps compose exactly. -/
theorem second_order_drift_compose (z1 z2 L gamma : ℝ) (_hL : L ≠ 0) (_hg : GammaOk gamma)
    (v : V6) :
    transferMap z2 L 0 0 0 gamma 2 (transferMap z1 L 0 0 0 gamma 2 v) =
      transferMap (z1 + z2) L 0 0 0 gamma 2 v := by
  simp only [transferMap_two, firstOrder_mulVec, quad_bend]
  simp only [zero_add, neg_zero, cosK_free, sinK_free, zero_div, mul_zero]
  funext i
  fin_cases i <;> simp [dK] <;> ring

/-- The drift map is not linear: off-energy particles drift sideways less. -/
example (z L : ℝ) :
    transferMap z L 0 0 0 0 2 ![0, 1, 0, 0, 0, 1] 0 = 0 ∧
      transferMap z L 0 0 0 0 1 ![0, 1, 0, 0, 0, 1] 0 = z := by
  constructor
  · simp only [transferMap_two, firstOrder_mulVec, quad_bend]
    simp [beta, igamma2]
    ring
  · rw [transferMap_one, firstOrder_mulVec]
    simp

/-! ### C79: equations of motion at second order -/

theorem quad_zero (L theta k1 k2 gamma : ℝ) (v : V6)
    (h : (theta = 0) ∨ (k1 = 0 ∧ k2 = 0)) : quad 0 L theta k1 k2 gamma v = 0 := by
  rcases h with rfl | ⟨rfl, rfl⟩
  · rw [quad_straight]
    funext i
    by_cases hk : k1 = 0
    · subst hk
      fin_cases i <;> simp [J_free, dK_zero]
    · fin_cases i <;> simp [J_focus _ _ _ _ _ hk, dK_zero] <;> norm_num
  · rw [quad_bend]
    funext i
    fin_cases i <;> simp [dK_zero, eK_zero]

/-- The second-order part starts with the quadratic part of the equations of motion. -/
theorem quad_start_bend (L theta gamma : ℝ) (v : V6) :
    HasDerivAt (fun z => quad z L theta 0 0 gamma v)
      (quadraticBend (theta / L) (beta gamma) (igamma2 gamma) v) 0 := by
  simp only [quad_bend]
  rw [hasDerivAt_pi]
  generalize theta / L = h
  have hc := hasDerivAt_cosK (h * h) 0
  have hs := hasDerivAt_sinK (h * h) 0
  have hd := hasDerivAt_dK (h * h) 0
  have he := hasDerivAt_eK (h * h) 0
  generalize beta gamma = β
  intro i
  fin_cases i
  all_goals
    simp only [quadraticBend, Fin.isValue]
    simp
    try apply HasDerivAt.congr_deriv
    · derivs hc, hs, hd, he
    · first
        | done
        | (simp [dK_zero, eK_zero]; done)
        | (simp [dK_zero, eK_zero]; ring1)

theorem quad_start_straight (L k K gamma : ℝ) (v : V6) :
    HasDerivAt (fun z => quad z L 0 k K gamma v)
      (quadraticStraight K (beta gamma) (igamma2 gamma) v) 0 := by
  rw [hasDerivAt_pi]
  have hc := hasDerivAt_cosK k 0
  have hs := hasDerivAt_sinK k 0
  have hd := hasDerivAt_dK k 0
  have hC := hasDerivAt_cosK (-k) 0
  have hS := hasDerivAt_sinK (-k) 0
  have hJ : HasDerivAt (fun z => (coef z L 0 k K gamma).Jc) 0 0 ∧
      HasDerivAt (fun z => (coef z L 0 k K gamma).Js) 0 0 ∧
      HasDerivAt (fun z => (coef z L 0 k K gamma).Jd) 0 0 := by
    by_cases hk : k = 0
    · subst hk
      simp only [J_free]
      refine ⟨?_, ?_, ?_⟩
      all_goals
        apply HasDerivAt.congr_deriv
        · derivs hc
        · simp
    · simp only [J_focus _ _ _ _ _ hk, pow_two]
      refine ⟨?_, ?_, ?_⟩
      all_goals
        apply HasDerivAt.congr_deriv
        · derivs hc, hs, hd, hC, hS
        · simp
  obtain ⟨h1, h2, h3⟩ := hJ
  have g1 : (coef 0 L 0 k K gamma).Jc = 0 ∧ (coef 0 L 0 k K gamma).Js = 0 ∧
      (coef 0 L 0 k K gamma).Jd = 0 := by
    by_cases hk : k = 0
    · subst hk; simp [J_free]
    · simp [J_focus _ _ _ _ _ hk, dK_zero]; norm_num
  simp only [quad_straight]
  generalize beta gamma = β
  intro i
  fin_cases i
  all_goals
    simp only [quadraticStraight, Fin.isValue]
    simp
    try apply HasDerivAt.congr_deriv
    · derivs hc, hs, hd, hC, hS, h1, h2, h3
    · first
        | done
        | (simp [dK_zero, g1]; done)
        | (simp [dK_zero, g1]; ring1)

theorem quad_motion (z L theta k1 k2 gamma : ℝ) (hL : L ≠ 0) (hg : GammaOk gamma) (v : V6)
    (N : V6 → V6)
    (hN : ∀ w, HasDerivAt (fun z => quad z L theta k1 k2 gamma w) (N w) 0)
    (hc : ∀ ε, quad (z + ε) L theta k1 k2 gamma v =
      firstOrder ε L theta k1 gamma *ᵥ quad z L theta k1 k2 gamma v +
        quad ε L theta k1 k2 gamma (firstOrder z L theta k1 gamma *ᵥ v)) :
    HasDerivAt (fun z => quad z L theta k1 k2 gamma v)
      (generator (theta / L) k1 (beta gamma) (igamma2 gamma) *ᵥ quad z L theta k1 k2 gamma v +
        N (firstOrder z L theta k1 gamma *ᵥ v)) z := by
  have h1 := (first_order_motion 0 L theta k1 gamma hL hg (quad z L theta k1 k2 gamma v)).fun_add
    (hN (firstOrder z L theta k1 gamma *ᵥ v))
  rw [first_order_zero L theta k1 gamma hL hg, Matrix.one_mulVec] at h1
  simp only [← hc] at h1
  have h2 := HasDerivAt.comp_sub_const (x := z) (a := z)
    (f := fun ε => quad (z + ε) L theta k1 k2 gamma v) (by simpa using h1)
  simpa using h2

/-- **C79, bends without gradients.** The second-order part of the map (what order 2 adds to
order 1) solves the equations of motion to second order: it is driven by the quadratic
part of the equations, evaluated on the linear motion, and starts at zero. -/
theorem second_order_motion_bend (z L theta gamma : ℝ) (hL : L ≠ 0) (hg : GammaOk gamma)
    (v : V6) :
    let extra := fun z => transferMap z L theta 0 0 gamma 2 v - transferMap z L theta 0 0 gamma 1 v
    extra 0 = 0 ∧
    HasDerivAt extra (generator (theta / L) 0 (beta gamma) (igamma2 gamma) *ᵥ extra z +
      quadraticBend (theta / L) (beta gamma) (igamma2 gamma)
        (transferMap z L theta 0 0 gamma 1 v)) z := by
  simp only [transferMap_two, transferMap_one, add_sub_cancel_left]
  exact ⟨quad_zero _ _ _ _ _ _ (Or.inr ⟨rfl, rfl⟩),
    quad_motion z L theta 0 0 gamma hL hg v _ (quad_start_bend L theta gamma)
      fun ε => quad_compose_bend z ε L theta gamma v⟩

/-- **C79, straight elements.** -/
theorem second_order_motion_straight (z L k1 k2 gamma : ℝ) (hL : L ≠ 0) (hg : GammaOk gamma)
    (v : V6) :
    let extra := fun z => transferMap z L 0 k1 k2 gamma 2 v - transferMap z L 0 k1 k2 gamma 1 v
    extra 0 = 0 ∧
    HasDerivAt extra (generator 0 k1 (beta gamma) (igamma2 gamma) *ᵥ extra z +
      quadraticStraight k2 (beta gamma) (igamma2 gamma) (transferMap z L 0 k1 k2 gamma 1 v)) z := by
  simp only [transferMap_two, transferMap_one, add_sub_cancel_left]
  refine ⟨quad_zero _ _ _ _ _ _ (Or.inl rfl), ?_⟩
  have h := quad_motion z L 0 k1 k2 gamma hL hg v _ (quad_start_straight L k1 k2 gamma)
      fun ε => ?_
  · simpa using h
  · by_cases hk : k1 = 0
    · subst hk
      exact quad_compose_free _ _ _ _ _ _
    · exact quad_compose_focus _ _ _ _ _ _ hk _

/-- Non-vacuity: the quadratic parts are not zero. -/
example : quadraticStraight 2 1 0 ![1, 0, 0, 0, 0, 0] 1 = -1 ∧
    quadraticBend 2 1 0 ![0, 1, 0, 0, 0, 0] 1 = -1 := by
  constructor <;> simp [quadraticStraight, quadraticBend]

end WakeT.TransferMatrix
