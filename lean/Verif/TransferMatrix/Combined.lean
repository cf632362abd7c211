import Verif.TransferMatrix.CombinedRows

/-! # Second-order motion in combined-function magnets: C78, C104 -/

set_option linter.unusedSectionVars false
set_option linter.unusedSimpArgs false
set_option linter.unusedTactic false
set_option linter.unreachableTactic false

namespace WakeT.TransferMatrix

open Matrix

/-- `J3` of the code is differentiable, with the right derivative without focusing. -/
theorem J3_deriv (L theta k1 k2 gamma z : ℝ) :
    ∃ g, HasDerivAt (fun z => (coef z L theta k1 k2 gamma).J3) g z ∧
      (k1 + theta / L * (theta / L) = 0 → g = dK (k1 + theta / L * (theta / L)) z ^ 3) := by
  by_cases hk : k1 + theta / L * (theta / L) = 0
  · refine ⟨_, ?_, fun _ => rfl⟩
    simp only [J3_eq L theta k1 k2 gamma _ hk]
    exact hasDerivAt_j3K _ z
  · have hs := hasDerivAt_sinK (k1 + theta / L * (theta / L)) z
    have hc := hasDerivAt_cosK (k1 + theta / L * (theta / L)) z
    have hd : DifferentiableAt ℝ (fun z => (coef z L theta k1 k2 gamma).J3) z := by
      have hs := hs.differentiableAt
      have hc := hc.differentiableAt
      simp only [coef, csqrt_ne_zero, ne_eq, hk, not_false_eq_true, if_true]
      fun_prop
    exact ⟨_, hd.hasDerivAt, fun h => absurd h hk⟩

/-- `Jd` and `Jf` of the code are differentiable. -/
theorem Jdf_deriv (L theta k1 k2 gamma z : ℝ) :
    (∃ g, HasDerivAt (fun z => (coef z L theta k1 k2 gamma).Jd) g z ∧
      (Regular (theta / L) k1 → g = (coef z L theta k1 k2 gamma).Js)) ∧
    (∃ g, HasDerivAt (fun z => (coef z L theta k1 k2 gamma).Jf) g z ∧
      (theta / L * k1 * k2 = 0 → Regular (theta / L) k1 →
        theta / L * k2 * g = theta / L * k2 * (coef z L theta k1 k2 gamma).Jd)) := by
  have hs := (hasDerivAt_sinK (k1 + theta / L * (theta / L)) z).differentiableAt
  have hc := (hasDerivAt_cosK (k1 + theta / L * (theta / L)) z).differentiableAt
  have hS := (hasDerivAt_sinK (-k1) z).differentiableAt
  have hC := (hasDerivAt_cosK (-k1) z).differentiableAt
  have hd := (hasDerivAt_dK (k1 + theta / L * (theta / L)) z).differentiableAt
  have he := (hasDerivAt_eK (k1 + theta / L * (theta / L)) z).differentiableAt
  have dx (z : ℝ) : (if k1 + theta / L * (theta / L) ≠ 0 then
        (1 - cosK (k1 + theta / L * (theta / L)) z) / (k1 + theta / L * (theta / L))
        else z * z / 2) = dK (k1 + theta / L * (theta / L)) z := rfl
  have ex (z : ℝ) : (if k1 + theta / L * (theta / L) ≠ 0 then
        (z - sinK (k1 + theta / L * (theta / L)) z) / (k1 + theta / L * (theta / L))
        else z * z * z / 6) = eK (k1 + theta / L * (theta / L)) z := rfl
  constructor
  · have h : DifferentiableAt ℝ (fun z => (coef z L theta k1 k2 gamma).Jd) z := by
      simp only [coef, csqrt_ne_zero, dx]
      split_ifs <;> fun_prop
    exact ⟨_, h.hasDerivAt, fun hr =>
      h.hasDerivAt.unique (hasDerivAt_J L theta k1 k2 gamma z hr).1⟩
  · have h : DifferentiableAt ℝ (fun z => (coef z L theta k1 k2 gamma).Jf) z := by
      simp only [coef, csqrt_ne_zero, ex]
      split_ifs <;> fun_prop
    refine ⟨_, h.hasDerivAt, fun h0 hr => ?_⟩
    have h1 := h.hasDerivAt.const_mul (theta / L * k2)
    simp only [Jf_eq L theta k1 k2 gamma _ h0 hr] at h1
    exact h1.unique ((hasDerivAt_fK L theta k1 k2 gamma z hr).const_mul _)

set_option maxHeartbeats 8000000 in
theorem row4 (z L theta k1 k2 gamma : ℝ) (v : V6)
    (hr : k2 = 0 ∨ Regular (theta / L) k1 ∨ (v 2 = 0 ∧ v 3 = 0))
    (hf : theta / L * k1 * k2 = 0 ∨ (v 2 = 0 ∧ v 3 = 0))
    (hx : theta / L * (k2 + 2 * (theta / L) * k1) = 0 ∨ k1 + theta / L * (theta / L) = 0 ∨
      v 5 = 0) :
    HasDerivAt (fun z => quad z L theta k1 k2 gamma v 4)
      (theta / L / beta gamma * quad z L theta k1 k2 gamma v 0 +
        quadraticMagnet (theta / L) k1 k2 (beta gamma)
        (igamma2 gamma) (firstOrder z L theta k1 gamma *ᵥ v) 4) z := by
  have hg := Jdf_deriv L theta k1 k2 gamma z
  have hg3 := J3_deriv L theta k1 k2 gamma z
  prelude
  obtain ⟨⟨gd, hJd, gd'⟩, gf, hJf, gf'⟩ := hg
  obtain ⟨g3, hJ3, g3'⟩ := hg3
  apply HasDerivAt.congr_deriv
  · derivs hc, hs, hd, he, hj, hC, hS, hJd, hJf, hJ3
  · clear hJd hJf hJ3
    have hw : h * (k2 + 2 * h * k1) * (g3 - d z ^ 3) = 0 ∨ f = 0 := by
      rcases hx with hx | hx | hx
      · rw [hx]; simp
      · rw [g3' hx]; simp
      · exact Or.inr hx
    have hy : (y = 0 ∧ r = 0) ∨ k2 = 0 ∨ (Regular h k1 ∧ h * k1 * k2 = 0) := by
      by_cases hp : y = 0 ∧ r = 0
      · exact Or.inl hp
      · by_cases h2 : k2 = 0
        · exact Or.inr (Or.inl h2)
        · exact Or.inr (Or.inr ⟨(hr.resolve_left h2).resolve_right hp, hf.resolve_right hp⟩)
    have hy' : Regular h k1 ∧ h * k1 * k2 = 0 → h * k2 * gf = h * k2 * Jd z ∧ gd = Js z ∧
        S z * S z = 2 * ((k + 4 * k1) * Jd z + d z) ∧
        C z * S z = (k + 4 * k1) * Js z + s z := by
      rintro ⟨hR, h0⟩
      exact ⟨gf' h0 hR, gd' hR, (hJ hR).1, (hJ hR).2.1⟩
    clear hr hf hx gd' gf' g3'
    rw [← sub_eq_zero]
    clear hc hs hd he hj hC hS hJ hJ' hF hF' h3 h3' hfree
    generalize c z = c at *
    generalize s z = s at *
    generalize d z = d at *
    generalize e z = e at *
    generalize j z = j at *
    generalize C z = C at *
    generalize S z = S at *
    generalize Jd z = Jd at *
    generalize Js z = Js at *
    generalize Jc z = Jc at *
    generalize Jf z = Jf at *
    generalize J3 z = J3 at *
    obtain rfl : e = (2 * k * j + s * d) / 3 := by linarith
    obtain rfl : k1 = k - h * h := by linarith
    clear j1 hk
    subst c1 l1
    rcases hw with hw | hw <;> [skip; (simp only [hw]; clear hw)] <;>
      (rcases hy with ⟨h1, h2⟩ | hy <;> [(simp only [h1, h2]; clear h1 h2); skip])
    all_goals
      revert x p y r f
      refine split_even ?_ ?_ ?_
      · intro x p y r f; ring
      · clear hy' q2
        intro x p f
        simp
        first | done | grind
      · intro y r
        first
          | (simp; done)
          | (clear q1
             rcases hy with rfl | hy
             · clear hy'
               simp
               grind
             · obtain ⟨t1, rfl, t2, t3⟩ := hy' hy
               have t4 := hy.2
               clear hy hy'
               simp
               linear_combination b * ((k - h * h) * y ^ 2 + r ^ 2) * t1 +
                 (b / 4 * (k - h * h) * y ^ 2 - b / 4 * r ^ 2) * q2)

/-- Cases in which the code has the right coefficients for component `i`. -/
structure Covered (h k1 k2 : ℝ) (v : V6) (i : Fin 6) : Prop where
  res : k2 = 0 ∨ 5 * k1 + h ^ 2 ≠ 0 ∨ (k1 = 0 ∧ h = 0) ∨ Planar v
  jf : h * k1 * k2 = 0 ∨ Planar v ∨ (v 5 = 0 ∧ i ≠ 4) ∨ i = 0 ∨ i = 1
  j3 : h * (k2 + 2 * h * k1) = 0 ∨ k1 + h ^ 2 = 0 ∨ v 5 = 0 ∨ i ≠ 4

theorem Covered.regular {h k1 k2 : ℝ} {v : V6} {i : Fin 6} (hc : Covered h k1 k2 v i) :
    k2 = 0 ∨ Regular h k1 ∨ (v 2 = 0 ∧ v 3 = 0) := by
  rcases hc.res with h | h | h | h
  · exact Or.inl h
  · exact Or.inr (Or.inl (Or.inl (by rwa [← pow_two])))
  · exact Or.inr (Or.inl (Or.inr h))
  · exact Or.inr (Or.inr h)

theorem quad_five (z L theta k1 k2 gamma : ℝ) (v : V6) : quad z L theta k1 k2 gamma v 5 = 0 :=
  T_row5 _ v

/-- The second-order part solves the equations of motion where the code is right. -/
theorem quad_combined (z L theta k1 k2 gamma : ℝ) (v : V6) (i : Fin 6)
    (hc : Covered (theta / L) k1 k2 v i) :
    HasDerivAt (fun z => quad z L theta k1 k2 gamma v i)
      ((generator (theta / L) k1 (beta gamma) (igamma2 gamma) *ᵥ
          quad z L theta k1 k2 gamma v) i +
        quadraticMagnet (theta / L) k1 k2 (beta gamma) (igamma2 gamma)
          (firstOrder z L theta k1 gamma *ᵥ v) i) z := by
  have h5 := quad_five z L theta k1 k2 gamma v
  have hr := hc.regular
  have hf := hc.jf
  have h3 := hc.j3
  have g : ∀ w : V6, generator (theta / L) k1 (beta gamma) (igamma2 gamma) *ᵥ w =
      ![w 1, -(k1 + (theta / L) ^ 2) * w 0 + theta / L / beta gamma * w 5, w 3, k1 * w 2,
        theta / L / beta gamma * w 0 + -igamma2 gamma / beta gamma ^ 2 * w 5, 0] := by
    intro w
    funext i
    fin_cases i <;>
      simp [generator, Matrix.mulVec, dotProduct, Fin.sum_univ_six]
  rw [g, h5]
  clear hc
  have hi : ∀ i : Fin 6, i = 0 ∨ i = 1 ∨ i = 2 ∨ i = 3 ∨ i = 4 ∨ i = 5 := by decide
  rcases hi i with rfl | rfl | rfl | rfl | rfl | rfl
  · refine (row0 z L theta k1 k2 gamma v hr).congr_deriv ?_
    simp
  · refine (row1 z L theta k1 k2 gamma v hr).congr_deriv ?_
    simp
  · refine (row2 z L theta k1 k2 gamma v hr ?_).congr_deriv ?_
    · rcases hf with h | h | h | h | h
      · exact Or.inl h
      · exact Or.inr (Or.inl h)
      · exact Or.inr (Or.inr h.1)
      · exact absurd h (by decide)
      · exact absurd h (by decide)
    simp
  · refine (row3 z L theta k1 k2 gamma v hr ?_).congr_deriv ?_
    · rcases hf with h | h | h | h | h
      · exact Or.inl h
      · exact Or.inr (Or.inl h)
      · exact Or.inr (Or.inr h.1)
      · exact absurd h (by decide)
      · exact absurd h (by decide)
    simp
  · refine (row4 z L theta k1 k2 gamma v hr ?_ ?_).congr_deriv ?_
    · rcases hf with h | h | h | h | h
      · exact Or.inl h
      · exact Or.inr h
      · exact absurd rfl h.2
      · exact absurd h (by decide)
      · exact absurd h (by decide)
    · rcases h3 with h | h | h | h
      · exact Or.inl h
      · exact Or.inr (Or.inl (by rwa [← pow_two]))
      · exact Or.inr (Or.inr h)
      · exact absurd rfl h
    · simp
  · have : (fun z => quad z L theta k1 k2 gamma v 5) = fun _ => 0 := by
      funext z; exact quad_five _ _ _ _ _ _ _
    rw [this]
    refine (hasDerivAt_const z (0 : ℝ)).congr_deriv ?_
    simp [quadraticMagnet]

set_option maxHeartbeats 1000000 in
theorem quad_at_zero (L theta k1 k2 gamma : ℝ) (v : V6) : quad 0 L theta k1 k2 gamma v = 0 := by
  have hJ2 : (coef 0 L theta k1 k2 gamma).J2 = 0 := by simp [coef_J2]
  have hJ3 : (coef 0 L theta k1 k2 gamma).J3 = 0 := by simp [coef]
  have hJd : (coef 0 L theta k1 k2 gamma).Jd = 0 := by simp [coef]
  have hJs : (coef 0 L theta k1 k2 gamma).Js = 0 := by simp [coef]
  have hJc : (coef 0 L theta k1 k2 gamma).Jc = 0 := by simp [coef]
  have hJf : (coef 0 L theta k1 k2 gamma).Jf = 0 := by simp [coef]
  funext i
  fin_cases i
  · refine (T_row0 _ v).trans ?_
    simp [T_000, T_001, T_011, T_005, T_015, T_055, T_022, T_023, T_033,
      coef_dx, coef_J1, coef_β, coef_h, coef_L, coef_cx, coef_sx,
      coef_cy, coef_sy, coef_kx2, coef_K1, coef_K2, coef_ig, coef_khk, hJ2, hJ3, hJd, hJs, hJc,
      hJf, dK_zero, eK_zero]
  · refine (T_row1 _ v).trans ?_
    simp [T_100, T_101, T_111, T_105, T_115, T_155, T_122, T_123, T_133,
      coef_dx, coef_J1, coef_β, coef_h, coef_L, coef_cx, coef_sx,
      coef_cy, coef_sy, coef_kx2, coef_K1, coef_K2, coef_ig, coef_khk, hJ2, hJ3, hJd, hJs, hJc,
      hJf, dK_zero, eK_zero]
  · refine (T_row2 _ v).trans ?_
    simp [T_202, T_203, T_212, T_213, T_225, T_235,
      coef_dx, coef_J1, coef_β, coef_h, coef_L, coef_cx, coef_sx,
      coef_cy, coef_sy, coef_kx2, coef_K1, coef_K2, coef_ig, coef_khk, hJ2, hJ3, hJd, hJs, hJc,
      hJf, dK_zero, eK_zero]
  · refine (T_row3 _ v).trans ?_
    simp [T_302, T_303, T_312, T_313, T_325, T_335,
      coef_dx, coef_J1, coef_β, coef_h, coef_L, coef_cx, coef_sx,
      coef_cy, coef_sy, coef_kx2, coef_K1, coef_K2, coef_ig, coef_khk, hJ2, hJ3, hJd, hJs, hJc,
      hJf, dK_zero, eK_zero]
  · refine (T_row4 _ v).trans ?_
    simp [T_400, T_401, T_411, T_405, T_415, T_455, T_422, T_423, T_433,
      coef_dx, coef_J1, coef_β, coef_h, coef_L, coef_cx, coef_sx,
      coef_cy, coef_sy, coef_kx2, coef_K1, coef_K2, coef_ig, coef_khk, hJ2, hJ3, hJd, hJs, hJc,
      hJf, dK_zero, eK_zero]
  · exact T_row5 _ v

end WakeT.TransferMatrix
