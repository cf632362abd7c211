import Verif.TransferMatrix.PropsSecond

/-! # Rows of the second-order map of combined-function magnets -/

set_option linter.unusedSectionVars false
set_option linter.unusedSimpArgs false
set_option linter.unusedTactic false
set_option linter.unreachableTactic false

namespace WakeT.TransferMatrix

open Matrix

/-- The integral of `dK ^ 2` as the code has it. -/
theorem coef_J2 (z L theta k1 k2 gamma : ℝ) :
    let k := k1 + theta / L * (theta / L)
    (coef z L theta k1 k2 gamma).J2 =
      if k ≠ 0 then (3 * z - 4 * sinK k z + sinK k z * cosK k z) / (2 * (k * k))
        else z ^ 5 / 20 := by
  simp only [coef, csqrt_ne_zero]

noncomputable def jK (k z : ℝ) : ℝ :=
  if k ≠ 0 then (3 * z - 4 * sinK k z + sinK k z * cosK k z) / (2 * (k * k)) else z ^ 5 / 20

theorem jK_mul (k z : ℝ) : 2 * k * jK k z = 3 * eK k z - sinK k z * dK k z := by
  unfold jK
  by_cases hk : k = 0
  · subst hk; simp [eK, dK]; ring
  · rw [if_pos hk]
    have h1 := eK_mul k z
    have h2 := dK_mul k z
    refine mul_left_cancel₀ hk ?_
    field_simp
    linear_combination -3 * h1 + sinK k z * h2

theorem hasDerivAt_jK (k z : ℝ) : HasDerivAt (jK k) (dK k z * dK k z) z := by
  have hs := hasDerivAt_sinK k z
  have hc := hasDerivAt_cosK k z
  by_cases hk : k = 0
  · subst hk
    have h := ((hasDerivAt_pow 5 z).div_const 20)
    have e : jK 0 = fun z => z ^ 5 / 20 := by funext z; simp [jK]
    rw [e]
    refine h.congr_deriv ?_
    simp [dK]; ring
  · have e : jK k = fun z => (3 * z - 4 * sinK k z + sinK k z * cosK k z) / (2 * (k * k)) := by
      funext z; simp [jK, hk]
    rw [e]
    have h2 := dK_mul k z
    have q := sinK_sq' k z
    have c := cosK_eq k z
    apply HasDerivAt.congr_deriv
    · derivs hs, hc
    · rw [c]
      field_simp
      linear_combination -k * q

/-- No resonance between the planes, or no focusing at all. -/
def Regular (h k1 : ℝ) : Prop := 5 * k1 + h * h ≠ 0 ∨ (k1 = 0 ∧ h = 0)

/-- What the code calls `Jf`, with the missing factor. -/
noncomputable def fK (h k1 z : ℝ) : ℝ :=
  if 5 * k1 + h * h ≠ 0 then
    ((if k1 ≠ 0 then (z - sinK (-k1) z * cosK (-k1) z) / (-4 * k1) else z * z * z / 6) -
      eK (k1 + h * h) z) / (5 * k1 + h * h)
  else z ^ 5 / 120

section J
variable (L theta k1 k2 gamma : ℝ)

theorem J_regular (z : ℝ) (hr : Regular (theta / L) k1) :
    let h := theta / L
    let k := k1 + h * h
    let D := k + 4 * k1
    let q := coef z L theta k1 k2 gamma
    sinK (-k1) z * sinK (-k1) z = 2 * (D * q.Jd + dK k z) ∧
      cosK (-k1) z * sinK (-k1) z = D * q.Js + sinK k z ∧
      q.Jc = 4 * k1 * q.Jd + dK k z := by
  dsimp only
  rcases hr with hr | ⟨rfl, hh⟩
  · have e : k1 + theta / L * (theta / L) - 4 * -k1 = 5 * k1 + theta / L * (theta / L) := by ring
    have e' : k1 + theta / L * (theta / L) + 4 * k1 = 5 * k1 + theta / L * (theta / L) := by ring
    have q1 := sinK_sq' (-k1) z
    have c1 := cosK_eq (-k1) z
    have c2 := cosK_eq (k1 + theta / L * (theta / L)) z
    have dx : (if k1 + theta / L * (theta / L) ≠ 0 then
        (1 - cosK (k1 + theta / L * (theta / L)) z) / (k1 + theta / L * (theta / L))
        else z * z / 2) = dK (k1 + theta / L * (theta / L)) z := rfl
    simp only [coef, e, e', if_pos hr, cos_double, csqrt_ne_zero, dx]
    rw [c2, c1]
    clear c1 c2 dx
    generalize theta / L * (theta / L) = h at *
    generalize dK (k1 + h) z = d
    generalize sinK (k1 + h) z = s
    generalize hD : 5 * k1 + h = D at *
    refine ⟨?_, ?_, ?_⟩
    · field_simp; ring
    · field_simp; ring
    · field_simp
      subst hD
      linear_combination (-4 * k1) * q1
  · simp only [coef, hh]
    simp [dK]
    refine ⟨?_, ?_⟩ <;> ring

theorem hasDerivAt_J (z : ℝ) (hr : Regular (theta / L) k1) :
    HasDerivAt (fun z => (coef z L theta k1 k2 gamma).Jd) (coef z L theta k1 k2 gamma).Js z ∧
      HasDerivAt (fun z => (coef z L theta k1 k2 gamma).Js) (coef z L theta k1 k2 gamma).Jc z ∧
      HasDerivAt (fun z => (coef z L theta k1 k2 gamma).Jc)
        (4 * k1 * (coef z L theta k1 k2 gamma).Js + sinK (k1 + theta / L * (theta / L)) z) z := by
  have h1 : HasDerivAt (fun z => (coef z L theta k1 k2 gamma).Jd)
      (coef z L theta k1 k2 gamma).Js z := by
    rcases hr with hr | ⟨rfl, hh⟩
    · have e : k1 + theta / L * (theta / L) - 4 * -k1 = 5 * k1 + theta / L * (theta / L) := by ring
      have hd := hasDerivAt_dK (k1 + theta / L * (theta / L)) z
      have hS := hasDerivAt_sinK (-k1) z
      have dx (z : ℝ) : (if k1 + theta / L * (theta / L) ≠ 0 then
        (1 - cosK (k1 + theta / L * (theta / L)) z) / (k1 + theta / L * (theta / L))
        else z * z / 2) = dK (k1 + theta / L * (theta / L)) z := rfl
      simp only [coef, e, if_pos hr, cos_double, csqrt_ne_zero, dx]
      apply HasDerivAt.congr_deriv
      · derivs hd, hS
      · ring
    · simp only [coef, hh]
      simp
      apply HasDerivAt.congr_deriv
      · derivs hasDerivAt_id' z
      · ring
  have h2 : HasDerivAt (fun z => (coef z L theta k1 k2 gamma).Js)
      (coef z L theta k1 k2 gamma).Jc z := by
    rcases hr with hr | ⟨rfl, hh⟩
    · have e : k1 + theta / L * (theta / L) - 4 * -k1 = 5 * k1 + theta / L * (theta / L) := by ring
      have hs := hasDerivAt_sinK (k1 + theta / L * (theta / L)) z
      have hS := hasDerivAt_sinK (-k1) z
      have hC := hasDerivAt_cosK (-k1) z
      simp only [coef, e, if_pos hr, cos_double, csqrt_ne_zero]
      apply HasDerivAt.congr_deriv
      · derivs hs, hS, hC
      · linear_combination (-1 / (5 * k1 + theta / L * (theta / L))) * cosK_sq (-k1) z
    · simp only [coef, hh]
      simp
      apply HasDerivAt.congr_deriv
      · derivs hasDerivAt_id' z
      · ring
  refine ⟨h1, h2, ?_⟩
  have h3 : (fun z => (coef z L theta k1 k2 gamma).Jc) = fun z =>
      4 * k1 * (coef z L theta k1 k2 gamma).Jd + dK (k1 + theta / L * (theta / L)) z := by
    funext z
    exact (J_regular L theta k1 k2 gamma z hr).2.2
  rw [h3]
  exact (h1.const_mul (4 * k1)).add (hasDerivAt_dK _ z)

theorem hasDerivAt_fK (z : ℝ) (hr : Regular (theta / L) k1) :
    HasDerivAt (fK (theta / L) k1) (coef z L theta k1 k2 gamma).Jd z := by
  rcases hr with hr | ⟨rfl, hh⟩
  · have e : k1 + theta / L * (theta / L) - 4 * -k1 = 5 * k1 + theta / L * (theta / L) := by ring
    have he := hasDerivAt_eK (k1 + theta / L * (theta / L)) z
    have hS := hasDerivAt_sinK (-k1) z
    have hC := hasDerivAt_cosK (-k1) z
    have q := cosK_sq (-k1) z
    have dx (z : ℝ) : (if k1 + theta / L * (theta / L) ≠ 0 then
        (1 - cosK (k1 + theta / L * (theta / L)) z) / (k1 + theta / L * (theta / L))
        else z * z / 2) = dK (k1 + theta / L * (theta / L)) z := rfl
    have f : fK (theta / L) k1 = fun z =>
      ((if k1 ≠ 0 then (z - sinK (-k1) z * cosK (-k1) z) / (-4 * k1) else z * z * z / 6) -
        eK (k1 + theta / L * (theta / L)) z) / (5 * k1 + theta / L * (theta / L)) := by
      funext z; simp only [fK, if_pos hr]
    rw [f]
    simp only [coef, e, if_pos hr, csqrt_ne_zero, dx]
    by_cases hk : k1 = 0
    · subst hk
      simp only [ne_eq, not_true, if_false]
      apply HasDerivAt.congr_deriv
      · derivs he
      · simp only [neg_zero, sinK_free]
        ring
    · simp only [ne_eq, hk, not_false_eq_true, if_true]
      apply HasDerivAt.congr_deriv
      · derivs he, hS, hC
      · have q' : cosK (-k1) z * cosK (-k1) z = 1 + k1 * (sinK (-k1) z * sinK (-k1) z) := by
          linear_combination q
        generalize 5 * k1 + theta / L * (theta / L) = D at *
        field_simp
        linear_combination 2 * q'
  · have f : fK (theta / L) 0 = fun z => z ^ 5 / 120 := by
      funext z; simp [fK, hh]
    rw [f]
    refine ((hasDerivAt_pow 5 z).div_const 120).congr_deriv ?_
    simp [coef, hh]
    ring

/-- Where the product of curvature and both gradients vanishes the code is right. -/
theorem Jf_eq (z : ℝ) (h : theta / L * k1 * k2 = 0) (hr : Regular (theta / L) k1) :
    theta / L * k2 * (coef z L theta k1 k2 gamma).Jf = theta / L * k2 * fK (theta / L) k1 z := by
  by_cases h1 : theta / L * k2 = 0
  · rw [h1]; simp
  · have hk : k1 = 0 := by
      rcases mul_eq_zero.mp h with h | h
      · rcases mul_eq_zero.mp h with h | h
        · simp [h] at h1
        · exact h
      · simp [h] at h1
    subst hk
    have hh : theta / L ≠ 0 := left_ne_zero_of_mul h1
    simp [coef, fK, eK, hh]

end J

/-- `J3` as it should be: the integral of `dK ^ 3`. -/
noncomputable def j3K (k z : ℝ) : ℝ :=
  if k ≠ 0 then (15 * z - 24 * sinK k z + 9 * sinK k z * cosK k z + 2 * k * sinK k z ^ 3) /
    (6 * k ^ 3) else z ^ 7 / 56

theorem hasDerivAt_j3K (k z : ℝ) : HasDerivAt (j3K k) (dK k z ^ 3) z := by
  have hs := hasDerivAt_sinK k z
  have hc := hasDerivAt_cosK k z
  by_cases hk : k = 0
  · subst hk
    have h := ((hasDerivAt_pow 7 z).div_const 56)
    have e : j3K 0 = fun z => z ^ 7 / 56 := by funext z; simp [j3K]
    rw [e]
    refine h.congr_deriv ?_
    simp [dK]; ring
  · have e : j3K k = fun z => (15 * z - 24 * sinK k z + 9 * sinK k z * cosK k z +
        2 * k * (sinK k z * sinK k z * sinK k z)) / (6 * k ^ 3) := by
      funext z; simp [j3K, hk]; ring
    rw [e]
    have q := sinK_sq' k z
    have c := cosK_eq k z
    apply HasDerivAt.congr_deriv
    · derivs hs, hc
    · rw [c]
      field_simp
      generalize sinK k z = s at *
      generalize dK k z = d at *
      grind

set_option hygiene false in
/-- Facts on the coefficient functions, which are then abstracted. -/
macro "prelude" : tactic => `(tactic| (
  have hJ2 (z : ℝ) : (coef z L theta k1 k2 gamma).J2 = jK (k1 + theta / L * (theta / L)) z :=
    coef_J2 z L theta k1 k2 gamma
  have hc := hasDerivAt_cosK (k1 + theta / L * (theta / L)) z
  have hs := hasDerivAt_sinK (k1 + theta / L * (theta / L)) z
  have hd := hasDerivAt_dK (k1 + theta / L * (theta / L)) z
  have he := hasDerivAt_eK (k1 + theta / L * (theta / L)) z
  have hj := hasDerivAt_jK (k1 + theta / L * (theta / L)) z
  have hC := hasDerivAt_cosK (-k1) z
  have hS := hasDerivAt_sinK (-k1) z
  have c1 := cosK_eq (k1 + theta / L * (theta / L)) z
  have l1 := len_eq (k1 + theta / L * (theta / L)) z
  have q1 := sinK_sq' (k1 + theta / L * (theta / L)) z
  have j1 := jK_mul (k1 + theta / L * (theta / L)) z
  have q2 := cosK_sq (-k1) z
  have hfree : k1 = 0 → cosK (-k1) z = 1 ∧ sinK (-k1) z = z := by rintro rfl; simp
  have hJ := J_regular L theta k1 k2 gamma z
  have hJ' := hasDerivAt_J L theta k1 k2 gamma z
  have hF' := hasDerivAt_fK L theta k1 k2 gamma z
  have hF := fun z => Jf_eq L theta k1 k2 gamma z
  have h3' := hasDerivAt_j3K (k1 + theta / L * (theta / L)) z
  have h3 := fun z => J3_eq L theta k1 k2 gamma z
  obtain ⟨Jd, eJd⟩ : ∃ f : ℝ → ℝ, ∀ z, (coef z L theta k1 k2 gamma).Jd = f z := ⟨_, fun _ => rfl⟩
  obtain ⟨Js, eJs⟩ : ∃ f : ℝ → ℝ, ∀ z, (coef z L theta k1 k2 gamma).Js = f z := ⟨_, fun _ => rfl⟩
  obtain ⟨Jc, eJc⟩ : ∃ f : ℝ → ℝ, ∀ z, (coef z L theta k1 k2 gamma).Jc = f z := ⟨_, fun _ => rfl⟩
  obtain ⟨Jf, eJf⟩ : ∃ f : ℝ → ℝ, ∀ z, (coef z L theta k1 k2 gamma).Jf = f z := ⟨_, fun _ => rfl⟩
  obtain ⟨J3, eJ3⟩ : ∃ f : ℝ → ℝ, ∀ z, (coef z L theta k1 k2 gamma).J3 = f z := ⟨_, fun _ => rfl⟩
  simp only [quad, secondOrder, T_row0, T_row1, T_row2, T_row3, T_row4, T_row5, firstOrder_mulVec]
  simp only [quadraticMagnet, T_000, T_001, T_011, T_005, T_015, T_055, T_022, T_023, T_033,
    T_100, T_101, T_111, T_105, T_115, T_155, T_122, T_123, T_133,
    T_202, T_203, T_212, T_213, T_225, T_235, T_302, T_303, T_312, T_313, T_325, T_335,
    T_400, T_401, T_411, T_405, T_415, T_455, T_422, T_423, T_433, hJ2, eJd, eJs, eJc, eJf, eJ3,
    coef_dx, coef_J1, coef_β, coef_h, coef_L, coef_cx, coef_sx,
    coef_cy, coef_sy, coef_kx2, coef_K1, coef_K2, coef_ig, coef_khk] at *
  clear eJd eJs eJc eJf eJ3 hJ2
  simp only [div_eq_mul_inv, mul_inv, ← inv_pow] at *
  generalize theta * L⁻¹ = h at *
  generalize (beta gamma)⁻¹ = b at *
  generalize igamma2 gamma = ig at *
  generalize hk : k1 + h * h = k at *
  generalize cosK k = c at *
  generalize sinK k = s at *
  generalize dK k = d at *
  generalize eK k = e at *
  generalize jK k = j at *
  generalize j3K k = G at *
  generalize fK h k1 = F at *
  generalize cosK (-k1) = C at *
  generalize sinK (-k1) = S at *
  clear L theta gamma
  generalize v 0 = x at *
  generalize v 1 = p at *
  generalize v 2 = y at *
  generalize v 3 = r at *
  generalize v 5 = f at *
  simp))

set_option hygiene false in
/-- Values at one position, with the dependent ones eliminated. -/
macro "values" : tactic => `(tactic| (
  clear hc hs hd he hj hC hS hJ hJ' hF hF' h3 h3' hfree
  generalize c z = c at *
  generalize s z = s at *
  generalize d z = d at *
  generalize e z = e at *
  generalize j z = j at *
  generalize C z = C at *
  generalize S z = S at *
  generalize Jd z = Jd at *
  generalize Js z = Js at *
  generalize Jc z = Jc at *
  obtain rfl : e = (2 * k * j + s * d) / 3 := by linarith
  obtain rfl : k1 = k - h * h := by linarith
  clear j1 hk
  subst c1 l1))

/-- The forms of the horizontal and longitudinal rows split into two parts. -/
theorem split_even {D : ℝ → ℝ → ℝ → ℝ → ℝ → ℝ}
    (hD : ∀ x p y r f, D x p y r f = D x p 0 0 f + D 0 0 y r 0)
    (h1 : ∀ x p f, D x p 0 0 f = 0) (h2 : ∀ y r, D 0 0 y r 0 = 0) (x p y r f : ℝ) :
    D x p y r f = 0 := by
  rw [hD, h1, h2]; simp

theorem J3_eq (L theta k1 k2 gamma z : ℝ) (h : k1 + theta / L * (theta / L) = 0) :
    (coef z L theta k1 k2 gamma).J3 = j3K (k1 + theta / L * (theta / L)) z := by
  simp only [coef, csqrt_ne_zero, j3K, h]
  simp

set_option maxHeartbeats 4000000 in
theorem row0 (z L theta k1 k2 gamma : ℝ) (v : V6)
    (hr : k2 = 0 ∨ Regular (theta / L) k1 ∨ (v 2 = 0 ∧ v 3 = 0)) :
    HasDerivAt (fun z => quad z L theta k1 k2 gamma v 0)
      (quad z L theta k1 k2 gamma v 1 + quadraticMagnet (theta / L) k1 k2 (beta gamma)
        (igamma2 gamma) (firstOrder z L theta k1 gamma *ᵥ v) 0) z := by
  prelude
  rcases hr with rfl | hr | ⟨rfl, rfl⟩
  · simp
    apply HasDerivAt.congr_deriv
    · derivs hc, hs, hd, he, hj, hC, hS
    · values
      grind
  · obtain ⟨r1, r2, r3⟩ := hJ hr
    obtain ⟨hJd, hJs, hJc⟩ := hJ' hr
    apply HasDerivAt.congr_deriv
    · derivs hc, hs, hd, he, hj, hC, hS, hJd, hJs, hJc
    · clear hJd hJs hJc hr r1 r2 r3 q2
      values
      grind
  · simp
    apply HasDerivAt.congr_deriv
    · derivs hc, hs, hd, he, hj, hC, hS
    · values
      grind

set_option maxHeartbeats 4000000 in
theorem row1 (z L theta k1 k2 gamma : ℝ) (v : V6)
    (hr : k2 = 0 ∨ Regular (theta / L) k1 ∨ (v 2 = 0 ∧ v 3 = 0)) :
    HasDerivAt (fun z => quad z L theta k1 k2 gamma v 1)
      (-(k1 + (theta / L) ^ 2) * quad z L theta k1 k2 gamma v 0 +
        quadraticMagnet (theta / L) k1 k2 (beta gamma)
        (igamma2 gamma) (firstOrder z L theta k1 gamma *ᵥ v) 1) z := by
  prelude
  rcases hr with rfl | hr | ⟨rfl, rfl⟩
  · simp
    apply HasDerivAt.congr_deriv
    · derivs hc, hs, hd, he, hj, hC, hS
    · values
      rw [← sub_eq_zero]
      revert x p y r f
      refine split_even ?_ ?_ ?_
      · intro x p y r f; ring
      · intro x p f; grind
      · intro y r; grind
  · obtain ⟨r1, r2, r3⟩ := hJ hr
    obtain ⟨hJd, hJs, hJc⟩ := hJ' hr
    apply HasDerivAt.congr_deriv
    · derivs hc, hs, hd, he, hj, hC, hS, hJd, hJs, hJc
    · clear hJd hJs hJc hr
      values
      rw [← sub_eq_zero]
      revert x p y r f
      refine split_even ?_ ?_ ?_
      · intro x p y r f; ring
      · clear r1 r2 r3 q2
        intro x p f; grind
      · clear q1
        intro y r; grind
  · simp
    apply HasDerivAt.congr_deriv
    · derivs hc, hs, hd, he, hj, hC, hS
    · values
      grind

set_option maxHeartbeats 8000000 in
theorem row2 (z L theta k1 k2 gamma : ℝ) (v : V6)
    (hr : k2 = 0 ∨ Regular (theta / L) k1 ∨ (v 2 = 0 ∧ v 3 = 0))
    (hf : theta / L * k1 * k2 = 0 ∨ (v 2 = 0 ∧ v 3 = 0) ∨ v 5 = 0) :
    HasDerivAt (fun z => quad z L theta k1 k2 gamma v 2)
      (quad z L theta k1 k2 gamma v 3 +
        quadraticMagnet (theta / L) k1 k2 (beta gamma)
        (igamma2 gamma) (firstOrder z L theta k1 gamma *ᵥ v) 2) z := by
  prelude
  by_cases hp : y = 0 ∧ r = 0
  · obtain ⟨rfl, rfl⟩ := hp
    simp
    exact hasDerivAt_const _ _
  by_cases hk2 : k2 = 0
  · subst hk2
    simp
    apply HasDerivAt.congr_deriv
    · derivs hc, hs, hd, he, hj, hC, hS
    · values
      clear hr hf hp
      rw [← sub_eq_zero]
      revert x p y r f
      refine split_mixed ?_ ?_ ?_ ?_ ?_ ?_ ?_
      · intro x p y r f; ring
      all_goals intro a a'; first | ring1 | (rw [r3]; ring1) | grind
  have hR : Regular h k1 := (hr.resolve_left hk2).resolve_right hp
  clear hr
  obtain ⟨r1, r2, r3⟩ := hJ hR
  obtain ⟨hJd, hJs, hJc⟩ := hJ' hR
  rcases hf with hf | hf | hf
  · by_cases hh : h = 0
    · simp [hh]
      apply HasDerivAt.congr_deriv
      · derivs hc, hs, hd, he, hj, hC, hS, hJd, hJs, hJc
      · clear hJd hJs hJc hR hf hp hk2
        values
        rw [← sub_eq_zero]
        revert x p y r f
        refine split_mixed ?_ ?_ ?_ ?_ ?_ ?_ ?_
        · intro x p y r f; ring
        all_goals intro a a'; first | ring1 | (rw [r3]; ring1) | grind
    · have hff : Jf = F := by
        funext z
        have := hF z hf hR
        exact mul_left_cancel₀ (mul_ne_zero hh hk2) this
      subst hff
      have hFd := hF' hR
      obtain rfl : k1 = 0 := by simpa [hh, hk2] using hf
      apply HasDerivAt.congr_deriv
      · derivs hc, hs, hd, he, hj, hC, hS, hJd, hJs, hJc, hFd
      · obtain ⟨f1, f2⟩ := hfree rfl
        clear hJd hJs hJc hFd hR hf hp hk2
        clear hc hs hd he hj hC hS hJ hJ' hF hF' h3 h3' hfree
        generalize c z = c at *
        generalize s z = s at *
        generalize d z = d at *
        generalize e z = e at *
        generalize j z = j at *
        generalize C z = C at *
        generalize S z = S at *
        generalize Jd z = Jd at *
        generalize Js z = Js at *
        generalize Jc z = Jc at *
        generalize Jf z = Jf at *
        obtain rfl : Js = e := by
          have h2 : h * h ≠ 0 := mul_ne_zero hh hh
          refine mul_left_cancel₀ h2 ?_
          rw [f1, f2] at r2
          rw [← hk] at l1 r2
          linarith
        clear hh
        obtain rfl : Js = (2 * k * j + s * d) / 3 := by linarith
        obtain rfl : k = h * h := by linarith
        clear j1 hk
        subst c1 l1
        rw [← sub_eq_zero]
        revert x p y r f
        refine split_mixed ?_ ?_ ?_ ?_ ?_ ?_ ?_
        · intro x p y r f; ring
        all_goals intro a a'; first | ring1 | (rw [r3]; ring1) | grind
  · exact absurd hf hp
  · simp [hf]
    apply HasDerivAt.congr_deriv
    · derivs hc, hs, hd, he, hj, hC, hS, hJd, hJs, hJc
    · clear hJd hJs hJc hR hf hp hk2
      values
      rw [← sub_eq_zero]
      revert x p y r f
      refine split_mixed ?_ ?_ ?_ ?_ ?_ ?_ ?_
      · intro x p y r f; ring
      all_goals intro a a'; first | ring1 | (rw [r3]; ring1) | grind

set_option maxHeartbeats 8000000 in
theorem row3 (z L theta k1 k2 gamma : ℝ) (v : V6)
    (hr : k2 = 0 ∨ Regular (theta / L) k1 ∨ (v 2 = 0 ∧ v 3 = 0))
    (hf : theta / L * k1 * k2 = 0 ∨ (v 2 = 0 ∧ v 3 = 0) ∨ v 5 = 0) :
    HasDerivAt (fun z => quad z L theta k1 k2 gamma v 3)
      (k1 * quad z L theta k1 k2 gamma v 2 +
        quadraticMagnet (theta / L) k1 k2 (beta gamma)
        (igamma2 gamma) (firstOrder z L theta k1 gamma *ᵥ v) 3) z := by
  prelude
  by_cases hp : y = 0 ∧ r = 0
  · obtain ⟨rfl, rfl⟩ := hp
    simp
    exact hasDerivAt_const _ _
  by_cases hk2 : k2 = 0
  · subst hk2
    simp
    apply HasDerivAt.congr_deriv
    · derivs hc, hs, hd, he, hj, hC, hS
    · values
      clear hr hf hp
      rw [← sub_eq_zero]
      revert x p y r f
      refine split_mixed ?_ ?_ ?_ ?_ ?_ ?_ ?_
      · intro x p y r f; ring
      all_goals intro a a'; first | ring1 | (rw [r3]; ring1) | grind
  have hR : Regular h k1 := (hr.resolve_left hk2).resolve_right hp
  clear hr
  obtain ⟨r1, r2, r3⟩ := hJ hR
  obtain ⟨hJd, hJs, hJc⟩ := hJ' hR
  rcases hf with hf | hf | hf
  · by_cases hh : h = 0
    · simp [hh]
      apply HasDerivAt.congr_deriv
      · derivs hc, hs, hd, he, hj, hC, hS, hJd, hJs, hJc
      · clear hJd hJs hJc hR hf hp hk2
        values
        rw [← sub_eq_zero]
        revert x p y r f
        refine split_mixed ?_ ?_ ?_ ?_ ?_ ?_ ?_
        · intro x p y r f; ring
        all_goals intro a a'; first | ring1 | (rw [r3]; ring1) | grind
    · have hff : Jf = F := by
        funext z
        have := hF z hf hR
        exact mul_left_cancel₀ (mul_ne_zero hh hk2) this
      subst hff
      have hFd := hF' hR
      obtain rfl : k1 = 0 := by simpa [hh, hk2] using hf
      apply HasDerivAt.congr_deriv
      · derivs hc, hs, hd, he, hj, hC, hS, hJd, hJs, hJc, hFd
      · obtain ⟨f1, f2⟩ := hfree rfl
        clear hJd hJs hJc hFd hR hf hp hk2
        clear hc hs hd he hj hC hS hJ hJ' hF hF' h3 h3' hfree
        generalize c z = c at *
        generalize s z = s at *
        generalize d z = d at *
        generalize e z = e at *
        generalize j z = j at *
        generalize C z = C at *
        generalize S z = S at *
        generalize Jd z = Jd at *
        generalize Js z = Js at *
        generalize Jc z = Jc at *
        generalize Jf z = Jf at *
        obtain rfl : Js = e := by
          have h2 : h * h ≠ 0 := mul_ne_zero hh hh
          refine mul_left_cancel₀ h2 ?_
          rw [f1, f2] at r2
          rw [← hk] at l1 r2
          linarith
        clear hh
        obtain rfl : Js = (2 * k * j + s * d) / 3 := by linarith
        obtain rfl : k = h * h := by linarith
        clear j1 hk
        subst c1 l1
        rw [← sub_eq_zero]
        revert x p y r f
        refine split_mixed ?_ ?_ ?_ ?_ ?_ ?_ ?_
        · intro x p y r f; ring
        all_goals intro a a'; first | ring1 | (rw [r3]; ring1) | grind
  · exact absurd hf hp
  · simp [hf]
    apply HasDerivAt.congr_deriv
    · derivs hc, hs, hd, he, hj, hC, hS, hJd, hJs, hJc
    · clear hJd hJs hJc hR hf hp hk2
      values
      rw [← sub_eq_zero]
      revert x p y r f
      refine split_mixed ?_ ?_ ?_ ?_ ?_ ?_ ?_
      · intro x p y r f; ring
      all_goals intro a a'; first | ring1 | (rw [r3]; ring1) | grind

end WakeT.TransferMatrix
