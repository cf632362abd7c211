import Verif.TransferMatrix.CombinedProps
import Mathlib.Analysis.Calculus.DSlope
import Mathlib.MeasureTheory.Integral.IntervalIntegral.FundThmCalculus

/-! # Weak magnets (C161)

The formulas of `transfer_matrices.py` have separate branches for vanishing strengths. -/

set_option linter.unusedSectionVars false

namespace WakeT.TransferMatrix

open Matrix Filter Topology

variable {X : Type*} [TopologicalSpace X]

/-! ### The focusing functions are continuous, across the branches -/

theorem csqrt_eq (k : ℝ) : csqrt k = (√k : ℂ) + √(-k) * Complex.I := by
  unfold csqrt
  split_ifs with h
  · rw [Real.sqrt_eq_zero_of_nonpos (by linarith : -k ≤ 0)]; simp
  · rw [Real.sqrt_eq_zero_of_nonpos (by linarith : k ≤ 0)]; simp

@[fun_prop] theorem continuous_csqrt : Continuous csqrt := by
  rw [show csqrt = _ from funext csqrt_eq]
  fun_prop

@[fun_prop] theorem continuous_cosK {k z : X → ℝ} (hk : Continuous k) (hz : Continuous z) :
    Continuous fun p => cosK (k p) (z p) := by
  unfold cosK
  fun_prop

/-- `sin w / w`. -/
noncomputable def sinc : ℂ → ℂ := dslope Complex.sin 0

theorem continuous_sinc : Continuous sinc := by
  rw [continuous_iff_continuousAt]
  intro w
  by_cases h : w = 0
  · subst h
    exact continuousAt_dslope_same.mpr Complex.differentiable_sin.differentiableAt
  · exact (continuousAt_dslope_of_ne h).mpr Complex.continuous_sin.continuousAt

theorem sinK_eq (k z : ℝ) : sinK k z = (z * sinc (csqrt k * z)).re := by
  have hs : ∀ w : ℂ, w * sinc w = Complex.sin w := by
    intro w
    have := sub_smul_dslope Complex.sin 0 w
    simpa [sinc] using this
  unfold sinK
  split_ifs with h
  · congr 1
    rw [div_eq_iff h, ← hs]
    ring
  · rw [not_not] at h
    rw [h, zero_mul]
    have : sinc 0 = 1 := by
      unfold sinc
      rw [dslope_same, (Complex.hasDerivAt_sin 0).deriv, Complex.cos_zero]
    rw [this]; simp

@[fun_prop] theorem continuous_sinK {k z : X → ℝ} (hk : Continuous k) (hz : Continuous z) :
    Continuous fun p => sinK (k p) (z p) := by
  simp only [sinK_eq]
  have := continuous_sinc
  fun_prop

/-- A primitive of a continuous function is continuous, also in a parameter. -/
theorem continuous_primitive {f F : ℝ → ℝ → ℝ} (hf : ∀ k z, HasDerivAt (F k) (f k z) z) (h0 : ∀ k, F k 0 = 0)
    (hc : Continuous fun p : ℝ × ℝ => f p.1 p.2) {k z : X → ℝ} (hk : Continuous k) (hz : Continuous z) :
    Continuous fun p => F (k p) (z p) := by
  have e : ∀ k z, F k z = ∫ t in (0 : ℝ)..z, f k t := by
    intro k z
    rw [intervalIntegral.integral_eq_sub_of_hasDerivAt (fun t _ => hf k t), h0, sub_zero]
    have : Continuous (f k) := hc.comp (by fun_prop : Continuous fun t : ℝ => (k, t))
    exact this.intervalIntegrable _ _
  simp only [e]
  refine intervalIntegral.continuous_parametric_intervalIntegral_of_continuous (f := fun p t => f (k p) t) ?_ hz
  exact hc.comp (by fun_prop : Continuous fun q : X × ℝ => (k q.1, q.2))

@[fun_prop] theorem continuous_dK {k z : X → ℝ} (hk : Continuous k) (hz : Continuous z) :
    Continuous fun p => dK (k p) (z p) :=
  continuous_primitive hasDerivAt_dK dK_zero (by fun_prop) hk hz

@[fun_prop] theorem continuous_eK {k z : X → ℝ} (hk : Continuous k) (hz : Continuous z) :
    Continuous fun p => eK (k p) (z p) :=
  continuous_primitive hasDerivAt_eK eK_zero (by fun_prop) hk hz

@[fun_prop] theorem continuous_jK {k z : X → ℝ} (hk : Continuous k) (hz : Continuous z) :
    Continuous fun p => jK (k p) (z p) :=
  continuous_primitive hasDerivAt_jK (fun k => by simp [jK]) (by fun_prop) hk hz

/-- `(z² / 2 - dK) / k`, with its limit. -/
noncomputable def gK (k z : ℝ) : ℝ := if k ≠ 0 then (z * z / 2 - dK k z) / k else z * z * z * z / 24

theorem gK_mul (k z : ℝ) : k * gK k z = z * z / 2 - dK k z := by
  unfold gK
  split_ifs with h
  · field_simp
  · rw [not_not] at h; subst h; simp [dK]

theorem hasDerivAt_gK (k z : ℝ) : HasDerivAt (gK k) (eK k z) z := by
  by_cases h : k = 0
  · subst h
    have e : gK 0 = fun z => z ^ 4 / 24 := by funext z; simp [gK]; ring
    rw [e]
    refine ((hasDerivAt_pow 4 z).div_const 24).congr_deriv ?_
    simp [eK]; ring
  · have e : gK k = fun z => (z ^ 2 / 2 - dK k z) / k := by funext z; simp [gK, h]; ring
    rw [e]
    refine ((((hasDerivAt_pow 2 z).div_const 2).sub (hasDerivAt_dK k z)).div_const k).congr_deriv ?_
    have := eK_mul k z
    field_simp
    push_cast
    linarith

@[fun_prop] theorem continuous_gK {k z : X → ℝ} (hk : Continuous k) (hz : Continuous z) :
    Continuous fun p => gK (k p) (z p) :=
  continuous_primitive hasDerivAt_gK (fun k => by simp [gK, dK]) (by fun_prop) hk hz

/-! ### Doubled strength -/

theorem cosK_double (k z : ℝ) : cosK (4 * k) z = 2 * cosK k z ^ 2 - 1 := by
  have h : ((cosK (4 * k) z : ℝ) : ℂ) = ((2 * cosK k z ^ 2 - 1 : ℝ) : ℂ) := by
    push_cast
    rw [cosK_complex, cosK_complex, ← Complex.cos_two_mul]
    congr 1
    have : csqrt (4 * k) = 2 * csqrt k := by
      have e4 : √(4 : ℝ) = 2 := by rw [show (4 : ℝ) = 2 ^ 2 by norm_num]; exact Real.sqrt_sq (by norm_num)
      rw [csqrt_eq, csqrt_eq, show -(4 * k) = 4 * -k by ring, Real.sqrt_mul (by norm_num), Real.sqrt_mul (by norm_num), e4]
      push_cast; ring
    rw [this]; ring
  exact_mod_cast h

theorem dK_double (k z : ℝ) : dK (4 * k) z = 1 / 2 * (sinK k z * sinK k z) := by
  by_cases h : k = 0
  · subst h; simp [dK]; ring
  · have h1 := dK_mul (4 * k) z
    have h2 := cosK_double k z
    have h3 := cosK_sq k z
    refine mul_left_cancel₀ (mul_ne_zero four_ne_zero h) ?_
    linear_combination h1 - h2 - 2 * h3

theorem sinK_double (k z : ℝ) : sinK (4 * k) z = cosK k z * sinK k z := by
  have h1 := (hasDerivAt_dK (4 * k) z)
  have h2 : HasDerivAt (dK (4 * k)) (cosK k z * sinK k z) z := by
    have e : dK (4 * k) = fun z => 1 / 2 * (sinK k z * sinK k z) := funext fun z => dK_double k z
    rw [e]
    refine (((hasDerivAt_sinK k z).mul (hasDerivAt_sinK k z)).const_mul (1 / 2)).congr_deriv ?_
    ring
  exact h1.unique h2

/-- The coupling coefficients of an element without curvature, in one formula. -/
theorem J_straight (z L k K gamma : ℝ) :
    (coef z L 0 k K gamma).Jc = (dK k z + 4 * dK (-(4 * k)) z) / 5 ∧
    (coef z L 0 k K gamma).Js = (eK k z + 4 * eK (-(4 * k)) z) / 5 ∧
    (coef z L 0 k K gamma).Jd = (gK k z + 4 * gK (-(4 * k)) z) / 5 := by
  by_cases hk : k = 0
  · subst hk
    obtain ⟨h1, h2, h3⟩ := J_free z L K gamma
    rw [h1, h2, h3]
    simp [dK, eK, gK]
    refine ⟨?_, ?_, ?_⟩ <;> ring
  · obtain ⟨h1, h2, h3⟩ := J_focus z L k K gamma hk
    obtain ⟨m, hm⟩ : ∃ m, m = 4 * -k := ⟨_, rfl⟩
    rw [h1, h2, h3, show -(4 * k) = m by rw [hm]; ring]
    have a1 := dK_mul k z
    have a2 : 4 * -k * dK m z = 1 - (2 * cosK (-k) z ^ 2 - 1) := by rw [← cosK_double, hm]; exact dK_mul _ z
    have b1 := eK_mul k z
    have b2 : 4 * -k * eK m z = z - cosK (-k) z * sinK (-k) z := by rw [← sinK_double, hm]; exact eK_mul _ z
    have c1 := gK_mul k z
    have c2 : 4 * -k * gK m z = z * z / 2 - 1 / 2 * (sinK (-k) z * sinK (-k) z) := by rw [← dK_double, hm]; exact gK_mul _ z
    refine ⟨?_, ?_, ?_⟩ <;> field_simp
    · linear_combination -a1 + a2
    · linear_combination -b1 + b2
    · linear_combination -2 * c1 + 2 * c2

/-! ### C161 -/

/-- **C161, first order.** The transfer map depends continuously on the position in the element, the
angle, the gradient and the coordinates of the particle, also at vanishing strengths. -/
theorem first_order_continuous (L gamma : ℝ) :
    Continuous fun p : ℝ × ℝ × ℝ × ℝ × V6 => transferMap p.1 L p.2.1 p.2.2.1 p.2.2.2.1 gamma 1 p.2.2.2.2 := by
  simp only [transferMap_one, firstOrder_mulVec]
  refine continuous_pi fun i => ?_
  fin_cases i <;> simp <;> fun_prop

theorem quad_straight_continuous (L gamma : ℝ) :
    Continuous fun p : ℝ × ℝ × ℝ × V6 => quad p.1 L 0 p.2.1 p.2.2.1 gamma p.2.2.2 := by
  simp only [quad_straight, J_straight]
  refine continuous_pi fun i => ?_
  fin_cases i <;> simp <;> fun_prop

theorem quad_bend_continuous (L gamma : ℝ) :
    Continuous fun p : ℝ × ℝ × V6 => quad p.1 L p.2.1 0 0 gamma p.2.2 := by
  simp only [quad_bend]
  refine continuous_pi fun i => ?_
  fin_cases i <;> simp <;> fun_prop

set_option maxHeartbeats 1000000 in
theorem quad_combined_continuous (L gamma : ℝ) {i : Fin 6} (hi : i ≠ 4) :
    Continuous fun p : ℝ × ℝ × ℝ × V6 => quad p.1 L p.2.1 p.2.2.1 0 gamma p.2.2.2 i := by
  have hJ (z theta k1 : ℝ) : (coef z L theta k1 0 gamma).J2 = jK (k1 + theta / L * (theta / L)) z := coef_J2 ..
  have h6 : ∀ i : Fin 6, i = 0 ∨ i = 1 ∨ i = 2 ∨ i = 3 ∨ i = 4 ∨ i = 5 := by decide
  rcases h6 i with rfl | rfl | rfl | rfl | rfl | rfl
  · refine (funext fun p => (T_row0 _ _) : (fun p : ℝ × ℝ × ℝ × V6 => quad p.1 L p.2.1 p.2.2.1 0 gamma p.2.2.2 0) = _) ▸ ?_
    simp only [T_000, T_001, T_011, T_005, T_015, T_055, T_022, T_023, T_033,
      coef_dx, coef_J1, coef_β, coef_h, coef_L, coef_cx, coef_sx,
      coef_cy, coef_sy, coef_kx2, coef_K1, coef_K2, coef_ig, coef_khk, hJ, mul_zero, zero_mul, zero_add]
    fun_prop
  · refine (funext fun p => (T_row1 _ _) : (fun p : ℝ × ℝ × ℝ × V6 => quad p.1 L p.2.1 p.2.2.1 0 gamma p.2.2.2 1) = _) ▸ ?_
    simp only [T_100, T_101, T_111, T_105, T_115, T_155, T_122, T_123, T_133,
      coef_dx, coef_J1, coef_β, coef_h, coef_L, coef_cx, coef_sx,
      coef_cy, coef_sy, coef_kx2, coef_K1, coef_K2, coef_ig, coef_khk, hJ, mul_zero, zero_mul, zero_add]
    fun_prop
  · refine (funext fun p => (T_row2 _ _) : (fun p : ℝ × ℝ × ℝ × V6 => quad p.1 L p.2.1 p.2.2.1 0 gamma p.2.2.2 2) = _) ▸ ?_
    simp only [T_202, T_203, T_212, T_213, T_225, T_235,
      coef_dx, coef_J1, coef_β, coef_h, coef_L, coef_cx, coef_sx,
      coef_cy, coef_sy, coef_kx2, coef_K1, coef_K2, coef_ig, coef_khk, hJ, mul_zero, zero_mul, zero_add]
    fun_prop
  · refine (funext fun p => (T_row3 _ _) : (fun p : ℝ × ℝ × ℝ × V6 => quad p.1 L p.2.1 p.2.2.1 0 gamma p.2.2.2 3) = _) ▸ ?_
    simp only [T_302, T_303, T_312, T_313, T_325, T_335,
      coef_dx, coef_J1, coef_β, coef_h, coef_L, coef_cx, coef_sx,
      coef_cy, coef_sy, coef_kx2, coef_K1, coef_K2, coef_ig, coef_khk, hJ, mul_zero, zero_mul, zero_add]
    fun_prop
  · exact absurd rfl hi
  · simp only [quad_five]
    exact continuous_const

/-- **C161, second order, partial.** The transfer map of second order depends continuously on the
position, the strengths and the coordinates of the particle

* for elements without curvature: quadrupoles and sextupoles and their superpositions, which become drifts
  continuously;
* for bends without gradients, which become drifts continuously;
* for the momenta and transverse coordinates in bends with a quadrupole gradient.

The full claim is continuity in the position, the angle, both gradients and the coordinates together for
every coordinate; it is false, see `second_order_continuous_violated`. -/
theorem second_order_continuous_partial (L gamma : ℝ) :
    (Continuous fun p : ℝ × ℝ × ℝ × V6 => transferMap p.1 L 0 p.2.1 p.2.2.1 gamma 2 p.2.2.2) ∧
    (Continuous fun p : ℝ × ℝ × V6 => transferMap p.1 L p.2.1 0 0 gamma 2 p.2.2) ∧
    ∀ i : Fin 6, i ≠ 4 → Continuous fun p : ℝ × ℝ × ℝ × V6 => transferMap p.1 L p.2.1 p.2.2.1 0 gamma 2 p.2.2.2 i := by
  have h1 := first_order_continuous L gamma
  simp only [transferMap_one] at h1
  simp only [transferMap_two]
  refine ⟨?_, ?_, fun i hi => ?_⟩
  · exact (h1.comp (by fun_prop : Continuous fun p : ℝ × ℝ × ℝ × V6 => (p.1, (0 : ℝ), p.2.1, p.2.2.1, p.2.2.2))).add
      (quad_straight_continuous L gamma)
  · exact (h1.comp (by fun_prop : Continuous fun p : ℝ × ℝ × V6 => (p.1, p.2.1, (0 : ℝ), (0 : ℝ), p.2.2))).add
      (quad_bend_continuous L gamma)
  · exact ((continuous_apply i).comp (h1.comp (by fun_prop : Continuous fun p : ℝ × ℝ × ℝ × V6 =>
      (p.1, p.2.1, p.2.2.1, (0 : ℝ), p.2.2.2)))).add (quad_combined_continuous L gamma hi)

@[fun_prop] theorem continuous_j3K {k z : X → ℝ} (hk : Continuous k) (hz : Continuous z) :
    Continuous fun p => j3K (k p) (z p) :=
  continuous_primitive hasDerivAt_j3K (fun k => by simp [j3K]) (by fun_prop) hk hz

/-- The coefficient `J3` of the code and the integral it stands for. -/
theorem coef_J3 (z L theta k1 k2 gamma : ℝ) (hk : k1 + theta / L * (theta / L) ≠ 0) :
    (coef z L theta k1 k2 gamma).J3 = j3K (k1 + theta / L * (theta / L)) z +
      sinK (k1 + theta / L * (theta / L)) z ^ 3 / (12 * (k1 + theta / L * (theta / L)) ^ 2) := by
  simp only [coef, csqrt_ne_zero, j3K, if_pos hk]
  generalize k1 + theta / L * (theta / L) = k at *
  have q := sinK_sq' k z
  have c := cosK_eq k z
  field_simp
  rw [c]
  linear_combination (-36 * k * sinK k z) * q

/-- Arrival of an off-energy particle on the axis of a sextupole with a weak dipole field. -/
theorem weak_bend (z L k2 gamma : ℝ) (hL : L ≠ 0) (hg : GammaOk gamma) : ∃ a : ℝ → ℝ, Continuous a ∧ ∀ theta, theta ≠ 0 →
    transferMap z L theta 0 k2 gamma 2 ![0, 0, 0, 0, 0, 1] 4 =
      a theta + -(k2 * L * sinK (theta / L * (theta / L)) z ^ 3 / (24 * beta gamma ^ 3)) * theta⁻¹ := by
  have hβ := beta_ne_zero hg
  refine ⟨fun theta => (theta / L * (theta / L) * eK (theta / L * (theta / L)) z / beta gamma ^ 2 - z / beta gamma ^ 2 * igamma2 gamma) -
    ((theta / L) ^ 3 / 6 / beta gamma ^ 3 * k2 * (3 * j3K (theta / L * (theta / L)) z - 2 * dK (theta / L * (theta / L)) z * jK (theta / L * (theta / L)) z)
      + 3 / 2 / beta gamma ^ 3 * igamma2 gamma * ((theta / L) ^ 2 * eK (theta / L * (theta / L)) z - z)), by fun_prop, fun theta ht => ?_⟩
  have hk : (0 : ℝ) + theta / L * (theta / L) ≠ 0 := by
    rw [zero_add]; exact mul_self_ne_zero.mpr (div_ne_zero ht hL)
  have hJ2 : (coef z L theta 0 k2 gamma).J2 = jK (0 + theta / L * (theta / L)) z := coef_J2 ..
  have hJ3 := coef_J3 z L theta 0 k2 gamma hk
  rw [transferMap_two, firstOrder_mulVec]
  have hq : quad z L theta 0 k2 gamma ![0, 0, 0, 0, 0, 1] 4 = (coef z L theta 0 k2 gamma).T 4 5 5 := by
    refine (T_row4 _ _).trans ?_
    simp
  rw [Pi.add_apply, hq, T_455]
  simp only [coef_dx, coef_J1, coef_β, coef_h, coef_L, coef_cx, coef_sx, coef_kx2, coef_K1, coef_ig, coef_khk, hJ2, hJ3]
  simp
  generalize sinK (theta / L * (theta / L)) z = s
  generalize j3K (theta / L * (theta / L)) z = j3
  generalize jK (theta / L * (theta / L)) z = j
  generalize dK (theta / L * (theta / L)) z = d
  generalize eK (theta / L * (theta / L)) z = e
  generalize beta gamma = b at *
  generalize igamma2 gamma = g at *
  field_simp
  ring

/-- **C161, violated.** In a sextupole with a dipole field, the weaker the dipole field the larger the
second-order change of the longitudinal position of a particle with the wrong energy: it grows beyond
all bounds, instead of approaching the one in the sextupole. -/
theorem second_order_continuous_violated {z L k2 gamma : ℝ} (hz : z ≠ 0) (hL : L ≠ 0) (hk : k2 ≠ 0) (hg : GammaOk gamma) :
    Tendsto (fun theta => |transferMap z L theta 0 k2 gamma 2 ![0, 0, 0, 0, 0, 1] 4|) (𝓝[≠] 0) atTop := by
  obtain ⟨a, ha, h⟩ := weak_bend z L k2 gamma hL hg
  have hβ := beta_ne_zero hg
  set b : ℝ → ℝ := fun theta => -(k2 * L * sinK (theta / L * (theta / L)) z ^ 3 / (24 * beta gamma ^ 3)) with hb
  have hbc : Continuous b := by fun_prop
  have hb0 : 0 < |b 0| := by
    rw [abs_pos, hb]
    simp only [zero_div, mul_zero, sinK_free]
    exact neg_ne_zero.mpr (div_ne_zero (mul_ne_zero (mul_ne_zero hk hL) (pow_ne_zero 3 hz)) (mul_ne_zero (by norm_num) (pow_ne_zero 3 hβ)))
  have h1 : Tendsto (fun theta => |b theta| * |theta⁻¹|) (𝓝[≠] 0) atTop :=
    Tendsto.pos_mul_atTop hb0 ((hbc.abs.tendsto 0).mono_left nhdsWithin_le_nhds) tendsto_norm_inv_nhdsNE_zero_atTop
  have h2 : Tendsto (fun theta => |b theta| * |theta⁻¹| + -|a theta|) (𝓝[≠] 0) atTop :=
    h1.atTop_add ((ha.abs.neg.tendsto 0).mono_left nhdsWithin_le_nhds)
  refine tendsto_atTop_mono' _ ?_ h2
  filter_upwards [self_mem_nhdsWithin] with theta ht
  rw [h theta ht, ← abs_mul]
  have := abs_sub_abs_le_abs_sub (b theta * theta⁻¹) (-a theta)
  rw [abs_neg, sub_neg_eq_add, add_comm (b theta * theta⁻¹)] at this
  linarith

/-- A sextupole of 10 cm with 50 m⁻³ at 100 MeV. -/
example : (1 / 10 : ℝ) ≠ 0 ∧ (50 : ℝ) ≠ 0 ∧ GammaOk 200 := ⟨by norm_num, by norm_num, Or.inr (by norm_num)⟩

end WakeT.TransferMatrix
