import Verif.Plasma.ColdFluidOrder
import Mathlib.Analysis.ODE.ExistUnique
import Mathlib.MeasureTheory.Integral.IntervalIntegral.FundThmCalculus

/-! # The cold fluid model in the linear regime (C166) -/

set_option linter.unusedSectionVars false

namespace WakeT.ColdFluid

open Set

/-! ### Specification: the linear wake -/

/-- What drives the linear wake: half the square of the laser amplitude, and the density of the beam. -/
noncomputable def drive (A N : ℝ → ℝ) (t : ℝ) : ℝ := A t ^ 2 / 2 - N t

/-- Potential and accelerating field of the linear wake at the distance `t` behind the head: every part of the driver leaves a sinusoidal wave behind. -/
noncomputable def linPsi (A N : ℝ → ℝ) (t : ℝ) : ℝ := ∫ s in (0 : ℝ)..t, Real.sin (t - s) * drive A N s
noncomputable def linEz (A N : ℝ → ℝ) (t : ℝ) : ℝ := ∫ s in (0 : ℝ)..t, Real.cos (t - s) * drive A N s

/-! ### The linear equation -/

theorem lin_deriv {A N : ℝ → ℝ} (hS : Continuous (drive A N)) (t : ℝ) :
    HasDerivAt (linPsi A N) (linEz A N t) t ∧ HasDerivAt (linEz A N) (drive A N t - linPsi A N t) t := by
  set S := drive A N
  have c1 : Continuous fun s => Real.cos s * S s := Real.continuous_cos.mul hS
  have c2 : Continuous fun s => Real.sin s * S s := Real.continuous_sin.mul hS
  have d1 := (c1.integral_hasStrictDerivAt 0 t).hasDerivAt
  have d2 := (c2.integral_hasStrictDerivAt 0 t).hasDerivAt
  have e1 : linPsi A N = fun t => Real.sin t * (∫ s in (0 : ℝ)..t, Real.cos s * S s) - Real.cos t * ∫ s in (0 : ℝ)..t, Real.sin s * S s := by
    funext t
    unfold linPsi
    rw [← intervalIntegral.integral_const_mul, ← intervalIntegral.integral_const_mul, ← intervalIntegral.integral_sub
      ((c1.intervalIntegrable _ _).const_mul _) ((c2.intervalIntegrable _ _).const_mul _)]
    refine intervalIntegral.integral_congr fun s _ => ?_
    show Real.sin (t - s) * S s = Real.sin t * (Real.cos s * S s) - Real.cos t * (Real.sin s * S s)
    rw [Real.sin_sub]
    ring
  have e2 : linEz A N = fun t => Real.cos t * (∫ s in (0 : ℝ)..t, Real.cos s * S s) + Real.sin t * ∫ s in (0 : ℝ)..t, Real.sin s * S s := by
    funext t
    unfold linEz
    rw [← intervalIntegral.integral_const_mul, ← intervalIntegral.integral_const_mul, ← intervalIntegral.integral_add
      ((c1.intervalIntegrable _ _).const_mul _) ((c2.intervalIntegrable _ _).const_mul _)]
    refine intervalIntegral.integral_congr fun s _ => ?_
    show Real.cos (t - s) * S s = Real.cos t * (Real.cos s * S s) + Real.sin t * (Real.sin s * S s)
    rw [Real.cos_sub]
    ring
  constructor
  · rw [e1, e2]
    refine (((Real.hasDerivAt_sin t).mul d1).sub ((Real.hasDerivAt_cos t).mul d2)).congr_deriv ?_
    ring
  · rw [e1, e2]
    refine (((Real.hasDerivAt_cos t).mul d1).add ((Real.hasDerivAt_sin t).mul d2)).congr_deriv ?_
    dsimp only
    linear_combination S t * Real.sin_sq_add_cos_sq t

theorem lin_zero (A N : ℝ → ℝ) : linPsi A N 0 = 0 ∧ linEz A N 0 = 0 := by
  simp [linPsi, linEz]

/-! ### The exact wake of a weak driver -/

/-- A number moved to the interval from -1/2 to 1/2. -/
noncomputable def cl (x : ℝ) : ℝ := max (-1 / 2) (min (1 / 2) x)

theorem cl_mem (x : ℝ) : -1 / 2 ≤ cl x ∧ cl x ≤ 1 / 2 := ⟨le_max_left _ _, max_le (by norm_num) (min_le_left _ _)⟩

theorem cl_eq {x : ℝ} (h : |x| ≤ 1 / 2) : cl x = x := by
  obtain ⟨h1, h2⟩ := abs_le.mp h
  unfold cl
  rw [min_eq_right h2, max_eq_right (by linarith)]

theorem cl_lip (x y : ℝ) : |cl x - cl y| ≤ |x - y| := by
  unfold cl
  have h1 := abs_max_sub_max_le_abs (min (1 / 2) x) (min (1 / 2) y) (-1 / 2)
  have h2 := abs_min_sub_min_le_max (1 / 2) x (1 / 2) y
  rw [sub_self, abs_zero, max_eq_right (abs_nonneg _)] at h2
  rw [max_comm (-1 / 2), max_comm (-1 / 2)]
  exact h1.trans h2

/-- The right hand side, with potential and field moved to the interval. -/
noncomputable def clipped (A N : ℝ → ℝ) (t : ℝ) (y : ℝ × ℝ) : ℝ × ℝ := (cl y.2, ((1 + A t ^ 2) / (1 + cl y.1) ^ 2 - 1) / 2 - N t)

theorem clipped_lip {A N : ℝ → ℝ} {t : ℝ} (hA : A t ^ 2 ≤ 1) (y w : ℝ × ℝ) : ‖clipped A N t y - clipped A N t w‖ ≤ 48 * ‖y - w‖ := by
  have h1 : |y.1 - w.1| ≤ ‖y - w‖ := norm_fst_le (y - w)
  have h2 : |y.2 - w.2| ≤ ‖y - w‖ := norm_snd_le (y - w)
  have h0 := norm_nonneg (y - w)
  refine max_le ?_ ?_
  · show |cl y.2 - cl w.2| ≤ _
    linarith [cl_lip y.2 w.2]
  · show |((1 + A t ^ 2) / (1 + cl y.1) ^ 2 - 1) / 2 - N t - (((1 + A t ^ 2) / (1 + cl w.1) ^ 2 - 1) / 2 - N t)| ≤ _
    obtain ⟨a1, a2⟩ := cl_mem y.1
    obtain ⟨b1, b2⟩ := cl_mem w.1
    have hl := (cl_lip y.1 w.1).trans h1
    generalize cl y.1 = a at *
    generalize cl w.1 = b at *
    have ha : 1 / 2 ≤ 1 + a := by linarith
    have hb : 1 / 2 ≤ 1 + b := by linarith
    have ha0 : 0 < 1 + a := by linarith
    have hb0 : 0 < 1 + b := by linarith
    have e : ((1 + A t ^ 2) / (1 + a) ^ 2 - 1) / 2 - N t - (((1 + A t ^ 2) / (1 + b) ^ 2 - 1) / 2 - N t) =
        (b - a) * ((1 + A t ^ 2) * (2 + a + b) / (2 * ((1 + a) ^ 2 * (1 + b) ^ 2))) := by
      field_simp
      ring
    rw [e, abs_mul, abs_sub_comm, mul_comm]
    refine mul_le_mul ?_ hl (abs_nonneg _) (by norm_num)
    rw [abs_of_nonneg (by have := sq_nonneg (A t); have : 0 ≤ 2 + a + b := by linarith
                          positivity), div_le_iff₀ (by positivity)]
    have p1 : 1 / 4 ≤ (1 + a) ^ 2 := by nlinarith
    have p2 : 1 / 4 ≤ (1 + b) ^ 2 := by nlinarith
    have p3 : 1 / 16 ≤ (1 + a) ^ 2 * (1 + b) ^ 2 := by nlinarith
    have p4 : (1 + A t ^ 2) * (2 + a + b) ≤ 2 * 3 := mul_le_mul (by linarith) (by linarith) (by linarith) (by norm_num)
    linarith

theorem clipped_zero (A N : ℝ → ℝ) (t : ℝ) : clipped A N t 0 = (0, drive A N t) := by
  unfold clipped drive
  rw [show ((0 : ℝ × ℝ).1) = 0 from rfl, show ((0 : ℝ × ℝ).2) = 0 from rfl, cl_eq (by norm_num)]
  refine Prod.ext rfl ?_
  dsimp only
  ring

theorem clipped_bound {A N : ℝ → ℝ} {t : ℝ} (hA : A t ^ 2 ≤ 1) (hN : |N t| ≤ 1) (y : ℝ × ℝ) : ‖clipped A N t y‖ ≤ 5 := by
  refine max_le ?_ ?_
  · show |cl y.2| ≤ 5
    obtain ⟨a1, a2⟩ := cl_mem y.2
    exact abs_le.mpr ⟨by linarith, by linarith⟩
  · show |((1 + A t ^ 2) / (1 + cl y.1) ^ 2 - 1) / 2 - N t| ≤ 5
    obtain ⟨a1, a2⟩ := cl_mem y.1
    generalize cl y.1 = a at *
    obtain ⟨n1, n2⟩ := abs_le.mp hN
    have p1 : 1 / 4 ≤ (1 + a) ^ 2 := by nlinarith
    have hA0 := sq_nonneg (A t)
    have p2 : (1 + A t ^ 2) / (1 + a) ^ 2 ≤ 8 := by
      rw [div_le_iff₀ (by linarith)]
      linarith
    have p3 : 0 ≤ (1 + A t ^ 2) / (1 + a) ^ 2 := by positivity
    exact abs_le.mpr ⟨by linarith, by linarith⟩

/-- Right derivative from one within an interval. -/
theorem right_deriv {E : Type*} [NormedAddCommGroup E] [NormedSpace ℝ E] {f : ℝ → E} {f' : E} {T t : ℝ} (ht : t ∈ Ico 0 T) (h : HasDerivWithinAt f f' (Icc 0 T) t) :
    HasDerivWithinAt f f' (Ici t) t :=
  h.mono_of_mem_nhdsWithin (Icc_mem_nhdsGE_of_mem ht)

/-- The exact wake of a weak driver exists, and is close to the linear one. -/
theorem weak_wake {T : ℝ} (hT : 0 ≤ T) : ∃ ε0 C, 0 < ε0 ∧ 0 ≤ C ∧ ∀ (A N : ℝ → ℝ) (ε : ℝ), Continuous A → Continuous N → ε ≤ ε0 →
    (∀ t ∈ Icc 0 T, A t ^ 2 / 2 + |N t| ≤ ε) →
    ∃ Ψ V, ExactWake A N T (1 / 2) Ψ V ∧ ∀ t ∈ Icc 0 T, |Ψ t - linPsi A N t| ≤ C * ε ^ 2 ∧ |V t - linEz A N t| ≤ C * ε ^ 2 := by
  set B := Real.exp (48 * T) with hB
  have hB0 : 0 < B := Real.exp_pos _
  refine ⟨min (1 / 2) (1 / (2 * B)), (2 * B + 16 * B ^ 2) * Real.exp T, by positivity, by positivity, ?_⟩
  intro A N ε hA hN hε hd
  have hε1 : ε ≤ 1 / 2 := hε.trans (min_le_left _ _)
  have hε2 : ε * B ≤ 1 / 2 := by
    have := (le_div_iff₀ (by positivity)).mp (hε.trans (min_le_right _ _))
    linarith
  have hε0 : 0 ≤ ε := by
    have := hd 0 ⟨le_rfl, hT⟩
    have := abs_nonneg (N 0)
    have := sq_nonneg (A 0)
    linarith
  have hA1 : ∀ t ∈ Icc 0 T, A t ^ 2 ≤ 2 * ε := fun t ht => by linarith [hd t ht, abs_nonneg (N t)]
  have hN1 : ∀ t ∈ Icc 0 T, |N t| ≤ ε := fun t ht => by linarith [hd t ht, sq_nonneg (A t)]
  have hS : ∀ t ∈ Icc 0 T, |drive A N t| ≤ ε := by
    intro t ht
    unfold drive
    refine (abs_sub _ _).trans ?_
    rw [abs_of_nonneg (by positivity)]
    exact hd t ht
  have hpl : IsPicardLindelof (clipped A N) (tmin := 0) (tmax := T) ⟨0, le_rfl, hT⟩ (0 : ℝ × ℝ) ⟨5 * T, by positivity⟩ 0 ⟨5, by norm_num⟩ ⟨48, by norm_num⟩ := by
    refine ⟨fun t ht => ?_, fun v _ => ?_, fun t ht v _ => ?_, ?_⟩
    · refine LipschitzOnWith.of_dist_le_mul fun v _ w _ => ?_
      rw [dist_eq_norm, dist_eq_norm]
      exact clipped_lip (by linarith [hA1 t ht]) v w
    · refine Continuous.continuousOn ?_
      unfold clipped
      have := (cl_mem v.1).1
      have h2 : (1 + cl v.1) ^ 2 ≠ 0 := pow_ne_zero _ (by linarith)
      fun_prop (disch := assumption)
    · exact clipped_bound (by linarith [hA1 t ht]) (by linarith [hN1 t ht]) v
    · show 5 * max (T - 0) (0 - 0) ≤ 5 * T - 0
      rw [sub_zero, sub_zero, sub_zero, max_eq_left hT]
  obtain ⟨y, y0, hy⟩ := hpl.exists_eq_forall_mem_Icc_hasDerivWithinAt₀
  have y0 : y 0 = 0 := y0
  have hyc : ContinuousOn y (Icc 0 T) := fun t ht => (hy t ht).continuousWithinAt
  -- the solution is small
  have small : ∀ t ∈ Icc 0 T, ‖y t‖ ≤ ε * B := by
    intro t ht
    have h1 := norm_le_gronwallBound_of_norm_deriv_right_le (δ := 0) (K := 48) (ε := ε) hyc (fun s hs => right_deriv hs (hy s ⟨hs.1, hs.2.le⟩)) (by rw [y0, norm_zero])
      (fun s hs => by
        have h2 := clipped_lip (N := N) (by linarith [hA1 s ⟨hs.1, hs.2.le⟩] : A s ^ 2 ≤ 1) (y s) 0
        rw [sub_zero, clipped_zero] at h2
        have h3 := norm_add_le (clipped A N s (y s) - (0, drive A N s)) (0, drive A N s)
        rw [sub_add_cancel] at h3
        have h4 : ‖((0 : ℝ), drive A N s)‖ ≤ ε := max_le (by simpa using hε0) (hS s ⟨hs.1, hs.2.le⟩)
        linarith) t ht
    rw [gronwallBound_of_K_ne_0 (by norm_num)] at h1
    beta_reduce at h1
    rw [zero_mul, zero_add, sub_zero] at h1
    have h5 : Real.exp (48 * t) ≤ B := Real.exp_le_exp.mpr (by linarith [ht.2])
    have h6 := Real.exp_pos (48 * t)
    refine h1.trans ?_
    nlinarith
  have hu : ∀ t ∈ Icc 0 T, |(y t).1| ≤ ε * B := fun t ht => (norm_fst_le (y t)).trans (small t ht)
  have hv : ∀ t ∈ Icc 0 T, |(y t).2| ≤ ε * B := fun t ht => (norm_snd_le (y t)).trans (small t ht)
  have hy' : ∀ t ∈ Icc 0 T, HasDerivWithinAt (fun t => (y t).1) ((y t).2) (Icc 0 T) t ∧
      HasDerivWithinAt (fun t => (y t).2) (((1 + A t ^ 2) / (1 + (y t).1) ^ 2 - 1) / 2 - N t) (Icc 0 T) t := by
    intro t ht
    have h := hy t ht
    unfold clipped at h
    rw [cl_eq ((hu t ht).trans hε2), cl_eq ((hv t ht).trans hε2)] at h
    exact ⟨h.fst, h.snd⟩
  refine ⟨fun t => (y t).1, fun t => (y t).2, ⟨by simp [y0], fun t ht => (hy' t ht).1, fun t ht => (hy' t ht).2, fun t ht => ?_⟩, ?_⟩
  · have := (abs_le.mp ((hu t ht).trans hε2)).1
    linarith
  -- the difference from the linear wake
  have hSc : Continuous (drive A N) := ((hA.pow 2).div_const 2).sub hN
  intro t ht
  have hL := lin_deriv hSc
  have h1 := norm_le_gronwallBound_of_norm_deriv_right_le (f := fun t => (y t - (linPsi A N t, linEz A N t) : ℝ × ℝ))
    (f' := fun t => ((y t).2 - linEz A N t, (((1 + A t ^ 2) / (1 + (y t).1) ^ 2 - 1) / 2 - N t) - (drive A N t - linPsi A N t))) (a := 0) (b := T)
    (δ := 0) (K := 1) (ε := (2 * B + 16 * B ^ 2) * ε ^ 2)
    (hyc.sub (((continuous_iff_continuousAt.mpr fun t => (hL t).1.continuousAt).prodMk
      (continuous_iff_continuousAt.mpr fun t => (hL t).2.continuousAt)).continuousOn))
    (fun s hs => by
      have hs' : s ∈ Icc 0 T := ⟨hs.1, hs.2.le⟩
      exact right_deriv hs ((((hy' s hs').1.sub (hL s).1.hasDerivWithinAt)).prodMk ((hy' s hs').2.sub (hL s).2.hasDerivWithinAt)))
    (by rw [y0, (lin_zero A N).1, (lin_zero A N).2]; simp)
    (fun s hs => by
      have hs' : s ∈ Icc 0 T := ⟨hs.1, hs.2.le⟩
      have k1 : |(y s).1 - linPsi A N s| ≤ ‖(y s - (linPsi A N s, linEz A N s) : ℝ × ℝ)‖ := norm_fst_le (y s - (linPsi A N s, linEz A N s) : ℝ × ℝ)
      have k2 : |(y s).2 - linEz A N s| ≤ ‖(y s - (linPsi A N s, linEz A N s) : ℝ × ℝ)‖ := norm_snd_le (y s - (linPsi A N s, linEz A N s) : ℝ × ℝ)
      have hq : 0 ≤ (2 * B + 16 * B ^ 2) * ε ^ 2 := by positivity
      rw [one_mul]
      refine max_le ?_ ?_
      · show |(y s).2 - linEz A N s| ≤ _
        linarith
      · show |(((1 + A s ^ 2) / (1 + (y s).1) ^ 2 - 1) / 2 - N s) - (drive A N s - linPsi A N s)| ≤ _
        have u1 := hu s hs'
        have u2 := abs_le.mp (u1.trans hε2)
        have a1 := hA1 s hs'
        have a0 := sq_nonneg (A s)
        unfold drive
        generalize (y s).1 = u at *
        generalize A s ^ 2 = a at *
        have hp : 0 < 1 + u := by linarith
        have hp2 : 1 / 4 ≤ (1 + u) ^ 2 := by nlinarith
        have e : ((1 + a) / (1 + u) ^ 2 - 1) / 2 - N s - (a / 2 - N s - linPsi A N s) =
            -(u - linPsi A N s) + (-(a * u) + (1 + a) / 2 * (u ^ 2 * (3 + 2 * u) / (1 + u) ^ 2)) := by
          field_simp
          ring
        rw [e]
        have q1 : |a * u| ≤ 2 * ε * (ε * B) := by
          rw [abs_mul, abs_of_nonneg a0]
          exact mul_le_mul a1 u1 (abs_nonneg _) (by positivity)
        have q2 : u ^ 2 ≤ (ε * B) ^ 2 := by
          rw [← sq_abs u]
          exact pow_le_pow_left₀ (abs_nonneg _) u1 2
        have q3 : |(1 + a) / 2 * (u ^ 2 * (3 + 2 * u) / (1 + u) ^ 2)| ≤ 16 * (ε * B) ^ 2 := by
          have h3 : 0 ≤ 3 + 2 * u := by linarith
          rw [abs_of_nonneg (by positivity)]
          have r1 : u ^ 2 * (3 + 2 * u) / (1 + u) ^ 2 ≤ 16 * u ^ 2 := by
            rw [div_le_iff₀ (by positivity)]
            nlinarith [sq_nonneg u]
          have r2 : 0 ≤ u ^ 2 * (3 + 2 * u) / (1 + u) ^ 2 := by positivity
          nlinarith
        have s1 := abs_add_le (-(u - linPsi A N s)) (-(a * u) + (1 + a) / 2 * (u ^ 2 * (3 + 2 * u) / (1 + u) ^ 2))
        have s2 := abs_add_le (-(a * u)) ((1 + a) / 2 * (u ^ 2 * (3 + 2 * u) / (1 + u) ^ 2))
        rw [abs_neg] at s1 s2
        linarith) t ht
  rw [gronwallBound_of_K_ne_0 one_ne_zero] at h1
  beta_reduce at h1
  rw [zero_mul, zero_add, sub_zero, one_mul, div_one] at h1
  have h2 : Real.exp t ≤ Real.exp T := Real.exp_le_exp.mpr ht.2
  have h3 : (2 * B + 16 * B ^ 2) * ε ^ 2 * (Real.exp t - 1) ≤ (2 * B + 16 * B ^ 2) * Real.exp T * ε ^ 2 := by
    have : 0 ≤ (2 * B + 16 * B ^ 2) * ε ^ 2 := by positivity
    nlinarith
  exact ⟨(norm_fst_le (y t - (linPsi A N t, linEz A N t) : ℝ × ℝ)).trans (h1.trans h3), (norm_snd_le (y t - (linPsi A N t, linEz A N t) : ℝ × ℝ)).trans (h1.trans h3)⟩

/-! ### C166 -/

/-- **C166.** For drivers of strength `ε` the potential and the accelerating field of the cold fluid model differ from those of the linear wake by at most
`C ε²`, apart from the error of the discretization. -/
theorem weak_driver {T : ℝ} (hT : 0 ≤ T) : ∃ ε0 C, 0 < ε0 ∧ ∀ (A N : ℝ → ℝ) (ε ν : ℝ), ContDiff ℝ 2 A → ContDiff ℝ 2 N → ε ≤ ε0 →
    (∀ t ∈ Icc 0 T, A t ^ 2 / 2 + |N t| ≤ ε) → (∀ t ∈ Icc 0 T, |deriv N t| ≤ ν) →
    ∃ D h0, 0 < h0 ∧ ∀ (m : Cold) (j : ℕ), j < m.nR → 0 < m.dr → 0 < m.dz → m.dz ≤ h0 → 3 ≤ m.nXi → ((m.nXi : ℝ) - 1) * m.dz ≤ T → Sampled m j A N →
      ∀ k < m.nXi, |(m.u k j).1 - linPsi A N (behind m k)| ≤ C * ε ^ 2 + D * (m.dz ^ 2 + ν * m.dz) ∧
        |m.Ez k j - linEz A N (behind m k)| ≤ C * ε ^ 2 + D * (m.dz ^ 2 + ν * m.dz) := by
  obtain ⟨ε0, C, h1, -, H⟩ := weak_wake hT
  refine ⟨ε0, C, h1, fun A N ε ν hA hN hε hd hν => ?_⟩
  obtain ⟨Ψ, V, sol, hc⟩ := H A N ε hA.continuous hN.continuous hε hd
  obtain ⟨D, h0, h00, G⟩ := fluid_order hT (by norm_num) hA hN sol hν
  refine ⟨D, h0, h00, fun m j hj hr hz hz0 h3 hTm hs k hk => ?_⟩
  obtain ⟨g1, g2⟩ := G m j hj hr hz hz0 h3 hTm hs k hk
  have hb : behind m k ∈ Icc 0 T := by
    have hk1 : (k : ℝ) + 1 ≤ m.nXi := by exact_mod_cast hk
    have hk0 : (0 : ℝ) ≤ k := Nat.cast_nonneg k
    unfold behind
    exact ⟨mul_nonneg (by linarith) hz.le, le_trans (mul_le_mul_of_nonneg_right (by linarith) hz.le) hTm⟩
  obtain ⟨c1, c2⟩ := hc _ hb
  constructor
  · have := abs_sub_le (m.u k j).1 (Ψ (behind m k)) (linPsi A N (behind m k))
    linarith
  · have := abs_sub_le (m.Ez k j) (V (behind m k)) (linEz A N (behind m k))
    linarith

theorem lin_add {A N A1 N1 A2 N2 : ℝ → ℝ} (h1 : Continuous (drive A1 N1)) (h2 : Continuous (drive A2 N2))
    (h : ∀ t, drive A N t = drive A1 N1 t + drive A2 N2 t) (t : ℝ) : linEz A N t = linEz A1 N1 t + linEz A2 N2 t := by
  unfold linEz
  have hc : Continuous fun s => Real.cos (t - s) := by fun_prop
  have c1 : Continuous fun s => Real.cos (t - s) * drive A1 N1 s := hc.mul h1
  have c2 : Continuous fun s => Real.cos (t - s) * drive A2 N2 s := hc.mul h2
  rw [← intervalIntegral.integral_add (c1.intervalIntegrable _ _) (c2.intervalIntegrable _ _)]
  refine intervalIntegral.integral_congr fun s _ => ?_
  rw [h, mul_add]

/-- **C166.** The wakes of weak drivers superpose: if the intensities and densities of a driver are the sums of those of two others, its accelerating field is
the sum of theirs, up to `C ε²` and the error of the discretization. -/
theorem weak_superpose {T : ℝ} (hT : 0 ≤ T) : ∃ ε0 C, 0 < ε0 ∧ ∀ (A N A1 N1 A2 N2 : ℝ → ℝ) (ε ν : ℝ), ContDiff ℝ 2 A → ContDiff ℝ 2 N →
    ContDiff ℝ 2 A1 → ContDiff ℝ 2 N1 → ContDiff ℝ 2 A2 → ContDiff ℝ 2 N2 → ε ≤ ε0 →
    (∀ t, A t ^ 2 = A1 t ^ 2 + A2 t ^ 2) → (∀ t, N t = N1 t + N2 t) →
    (∀ t ∈ Icc 0 T, A1 t ^ 2 / 2 + |N1 t| + (A2 t ^ 2 / 2 + |N2 t|) ≤ ε) → (∀ t ∈ Icc 0 T, |deriv N1 t| + |deriv N2 t| ≤ ν) →
    ∃ D h0, 0 < h0 ∧ ∀ (m m1 m2 : Cold) (j : ℕ), j < m.nR → 0 < m.dr → 0 < m.dz → m.dz ≤ h0 → 3 ≤ m.nXi → ((m.nXi : ℝ) - 1) * m.dz ≤ T →
      (m1.nXi = m.nXi ∧ m1.nR = m.nR ∧ m1.dz = m.dz ∧ m1.dr = m.dr) → (m2.nXi = m.nXi ∧ m2.nR = m.nR ∧ m2.dz = m.dz ∧ m2.dr = m.dr) →
      Sampled m j A N → Sampled m1 j A1 N1 → Sampled m2 j A2 N2 →
      ∀ k < m.nXi, |m.Ez k j - (m1.Ez k j + m2.Ez k j)| ≤ C * ε ^ 2 + D * (m.dz ^ 2 + ν * m.dz) := by
  obtain ⟨ε0, C, h1, H⟩ := weak_driver hT
  refine ⟨ε0, 3 * C, h1, fun A N A1 N1 A2 N2 ε ν hA hN hA1 hN1 hA2 hN2 hε hAA hNN hd hν => ?_⟩
  have hd0 : ∀ t ∈ Icc 0 T, A t ^ 2 / 2 + |N t| ≤ ε := fun t ht => by
    rw [hAA, hNN]
    linarith [hd t ht, abs_add_le (N1 t) (N2 t)]
  have hd1 : ∀ t ∈ Icc 0 T, A1 t ^ 2 / 2 + |N1 t| ≤ ε := fun t ht => by
    linarith [hd t ht, abs_nonneg (N2 t), sq_nonneg (A2 t)]
  have hd2 : ∀ t ∈ Icc 0 T, A2 t ^ 2 / 2 + |N2 t| ≤ ε := fun t ht => by
    linarith [hd t ht, abs_nonneg (N1 t), sq_nonneg (A1 t)]
  have hn0 : ∀ t ∈ Icc 0 T, |deriv N t| ≤ ν := fun t ht => by
    rw [show N = N1 + N2 from funext hNN, deriv_add (hN1.differentiable (by norm_num)).differentiableAt (hN2.differentiable (by norm_num)).differentiableAt]
    exact (abs_add_le _ _).trans (hν t ht)
  obtain ⟨D, h, hp, G⟩ := H A N ε ν hA hN hε hd0 hn0
  obtain ⟨D1, g1, hp1, G1⟩ := H A1 N1 ε ν hA1 hN1 hε hd1 fun t ht => by linarith [hν t ht, abs_nonneg (deriv N2 t)]
  obtain ⟨D2, g2, hp2, G2⟩ := H A2 N2 ε ν hA2 hN2 hε hd2 fun t ht => by linarith [hν t ht, abs_nonneg (deriv N1 t)]
  refine ⟨D + D1 + D2, min h (min g1 g2), by positivity, ?_⟩
  rintro m m1 m2 j hj hr hz hz0 h3 hTm ⟨a1, a2, a3, a4⟩ ⟨b1, b2, b3, b4⟩ hs hs1 hs2 k hk
  have z0 := hz0.trans (min_le_left _ _)
  have z1 := hz0.trans ((min_le_right _ _).trans (min_le_left _ _))
  have z2 := hz0.trans ((min_le_right _ _).trans (min_le_right _ _))
  have r0 := (G m j hj hr hz z0 h3 hTm hs k hk).2
  have r1 := (G1 m1 j (a2 ▸ hj) (a4 ▸ hr) (a3 ▸ hz) (a3 ▸ z1) (a1 ▸ h3) (by rw [a1, a3]; exact hTm) hs1 k (a1 ▸ hk)).2
  have r2 := (G2 m2 j (b2 ▸ hj) (b4 ▸ hr) (b3 ▸ hz) (b3 ▸ z2) (b1 ▸ h3) (by rw [b1, b3]; exact hTm) hs2 k (b1 ▸ hk)).2
  rw [show behind m1 k = behind m k by unfold behind; rw [a1, a3], a3] at r1
  rw [show behind m2 k = behind m k by unfold behind; rw [b1, b3], b3] at r2
  have hl := lin_add (A := A) (N := N) (((hA1.continuous.pow 2).div_const 2).sub hN1.continuous) (((hA2.continuous.pow 2).div_const 2).sub hN2.continuous)
    (fun t => by unfold drive; rw [hAA, hNN]; ring) (behind m k)
  obtain ⟨p1, p2⟩ := abs_le.mp r0
  obtain ⟨q1, q2⟩ := abs_le.mp r1
  obtain ⟨s1, s2⟩ := abs_le.mp r2
  exact abs_le.mpr ⟨by linarith, by linarith⟩

/-- A weak laser pulse of amplitude `a sin t` in a box of the length 10: the accelerating field is that of the linear wake. -/
example : ∃ a0 C : ℝ, 0 < a0 ∧ ∀ a ≤ a0, 0 ≤ a → ∃ D h0 : ℝ, 0 < h0 ∧ ∀ n : ℕ, 3 ≤ n → 10 / ((n : ℝ) - 1) ≤ h0 →
    let m : Cold := ⟨n, 2, 0, 10 / ((n : ℝ) - 1), 1, true, some fun k _ => a * Real.sin (((n : ℝ) - 1 - k) * (10 / ((n : ℝ) - 1))), fun _ _ => 0⟩
    ∀ k < n, |m.Ez k 1 - ∫ s in (0 : ℝ)..behind m k, Real.cos (behind m k - s) * ((a * Real.sin s) ^ 2 / 2)| ≤ C * a ^ 4 + D * m.dz ^ 2 := by
  obtain ⟨ε0, C, h1, H⟩ := weak_driver (T := 10) (by norm_num)
  refine ⟨min 1 ε0, C, by positivity, fun a ha ha0 => ?_⟩
  have a1 : a ≤ 1 := ha.trans (min_le_left _ _)
  have a2 : a ≤ ε0 := ha.trans (min_le_right _ _)
  obtain ⟨D, h0, h00, G⟩ := H (fun t => a * Real.sin t) (fun _ => 0) (a ^ 2) 0 (contDiff_const.mul Real.contDiff_sin) contDiff_const (by nlinarith)
    (fun t _ => by
      have := Real.sin_sq_le_one t
      have := sq_nonneg a
      rw [abs_zero, mul_pow]
      nlinarith) (fun t _ => by simp)
  refine ⟨D, h0, h00, fun n hn hh => ?_⟩
  have hn1 : (0 : ℝ) < (n : ℝ) - 1 := by
    have : (3 : ℝ) ≤ n := by exact_mod_cast hn
    linarith
  intro m k hk
  have := (G m 1 (by simp [m]) (by simp [m]) (by simp only [m]; positivity) hh hn ?_ ⟨?_, ?_⟩ k hk).2
  · simpa only [linEz, drive, sub_zero, zero_mul, add_zero, ← pow_mul] using this
  · simp only [m]; rw [mul_div_cancel₀ _ hn1.ne']
  · intro k hk
    simp [Cold.aEnv, m, behind]
  · intro k hk
    simp [m]

/-- The wake of a weak pulse of amplitude `a sin t` together with a weak beam of density `a² cos² t` is the sum of the wakes of the pulse and of the beam. -/
example : ∃ a0 C : ℝ, 0 < a0 ∧ ∀ a ≤ a0, 0 ≤ a → ∃ D h0 : ℝ, 0 < h0 ∧ ∀ n : ℕ, 3 ≤ n → 10 / ((n : ℝ) - 1) ≤ h0 →
    let pos : ℕ → ℝ := fun k => ((n : ℝ) - 1 - k) * (10 / ((n : ℝ) - 1))
    let laser : ℕ → ℕ → ℝ := fun k _ => a * Real.sin (pos k)
    let beam : ℕ → ℕ → ℝ := fun k _ => a ^ 2 * Real.cos (pos k) ^ 2
    let both : Cold := ⟨n, 2, 0, 10 / ((n : ℝ) - 1), 1, true, some laser, beam⟩
    let pulse : Cold := ⟨n, 2, 0, 10 / ((n : ℝ) - 1), 1, true, some laser, fun _ _ => 0⟩
    let bunch : Cold := ⟨n, 2, 0, 10 / ((n : ℝ) - 1), 1, true, none, beam⟩
    ∀ k < n, |both.Ez k 1 - (pulse.Ez k 1 + bunch.Ez k 1)| ≤ C * a ^ 4 + D * both.dz := by
  obtain ⟨ε0, C, h1, H⟩ := weak_superpose (T := 10) (by norm_num)
  refine ⟨min 1 ε0, C, by positivity, fun a ha ha0 => ?_⟩
  have a1 : a ≤ 1 := ha.trans (min_le_left _ _)
  have a2 : a ≤ ε0 := ha.trans (min_le_right _ _)
  have cA : ContDiff ℝ 2 fun t : ℝ => a * Real.sin t := contDiff_const.mul Real.contDiff_sin
  have cN : ContDiff ℝ 2 fun t : ℝ => a ^ 2 * Real.cos t ^ 2 := contDiff_const.mul (Real.contDiff_cos.pow 2)
  obtain ⟨ν, hν⟩ := isCompact_Icc.exists_bound_of_continuousOn (s := Icc (0 : ℝ) 10) (cN.continuous_deriv (by norm_num)).continuousOn
  obtain ⟨D, h0, h00, G⟩ := H _ _ _ (fun _ => 0) (fun _ => 0) _ (a ^ 2) ν cA cN cA contDiff_const contDiff_const cN (by nlinarith)
    (fun t => by ring) (fun t => by ring) (fun t _ => by
      have h2 := Real.sin_sq_add_cos_sq t
      have h3 := sq_nonneg (a * Real.sin t)
      rw [abs_zero, abs_of_nonneg (by positivity)]
      linear_combination h3 / 2 + a ^ 2 * h2)
    (fun t ht => by simpa using hν t ht)
  have hν0 : 0 ≤ ν := (norm_nonneg _).trans (hν 0 ⟨le_rfl, by norm_num⟩)
  refine ⟨|D| * (1 + ν), min h0 1, by positivity, fun n hn hh => ?_⟩
  have hn1 : (0 : ℝ) < (n : ℝ) - 1 := by
    have : (3 : ℝ) ≤ n := by exact_mod_cast hn
    linarith
  intro pos laser beam both pulse bunch k hk
  have hz : 0 < both.dz := by simp only [both]; positivity
  have hz1 : both.dz ≤ 1 := hh.trans (min_le_right _ _)
  have := G both pulse bunch 1 (by simp [both]) (by simp [both]) hz (hh.trans (min_le_left _ _)) hn ?_ ⟨rfl, rfl, rfl, rfl⟩ ⟨rfl, rfl, rfl, rfl⟩ ⟨?_, ?_⟩ ⟨?_, ?_⟩ ⟨?_, ?_⟩ k hk
  · refine this.trans ?_
    have h2 : both.dz ^ 2 + ν * both.dz ≤ (1 + ν) * both.dz := by nlinarith
    have h3 : 0 ≤ both.dz ^ 2 + ν * both.dz := by positivity
    have h4 : D * (both.dz ^ 2 + ν * both.dz) ≤ |D| * (1 + ν) * both.dz :=
      calc D * (both.dz ^ 2 + ν * both.dz) ≤ |D| * (both.dz ^ 2 + ν * both.dz) := mul_le_mul_of_nonneg_right (le_abs_self D) h3
        _ ≤ |D| * ((1 + ν) * both.dz) := mul_le_mul_of_nonneg_left h2 (abs_nonneg D)
        _ = _ := by ring
    rw [show (a ^ 2) ^ 2 = a ^ 4 by ring]
    linarith
  · simp only [both]; rw [mul_div_cancel₀ _ hn1.ne']
  · intro k hk
    simp [Cold.aEnv, both, laser, pos, behind]
  · intro k hk
    simp [both, beam, pos, behind]
  · intro k hk
    simp [Cold.aEnv, pulse, laser, pos, behind]
  · intro k hk
    simp [pulse]
  · intro k hk
    simp [Cold.aEnv, bunch]
  · intro k hk
    simp [bunch, beam, pos, behind]

end WakeT.ColdFluid
