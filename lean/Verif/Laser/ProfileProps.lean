import Verif.Laser.Profiles
import Mathlib.Analysis.SpecialFunctions.Gaussian.GaussianIntegral
import Mathlib.Analysis.SpecialFunctions.ExpDeriv
import Mathlib.Analysis.Calculus.Deriv.Pow
import Mathlib.Analysis.Calculus.Deriv.Inv
import Mathlib.Data.Nat.Choose.Sum
import Mathlib.Algebra.BigOperators.Intervals

/-! # Properties of the laser profiles (C52, C53, C54, C55, C89) -/

set_option linter.unusedSectionVars false

namespace WakeT.Laser

open Complex (I)

/-! ### C52 -/

/-- Adding pulses: an error exactly if some wavelength differs; otherwise the envelope is
the sum of the envelopes. -/
theorem addAll_spec (p : LPulse) (l : List LPulse) :
    (p.addAll l = none ↔ ∃ q ∈ l, q.l0 ≠ p.l0) ∧
    ∀ s, p.addAll l = some s → s.l0 = p.l0 ∧
      ∀ xi r z, s.env xi r z = p.env xi r z + (l.map fun q => q.env xi r z).sum := by
  induction l generalizing p with
  | nil =>
    refine ⟨by simp [LPulse.addAll], fun s hs => ?_⟩
    simp only [LPulse.addAll, List.foldlM_nil, Option.pure_def, Option.some.injEq] at hs
    subst hs
    exact ⟨rfl, fun xi r z => by simp⟩
  | cons q l ih =>
    have e : p.addAll (q :: l) = (p.add q).bind fun s => s.addAll l := by
      simp only [LPulse.addAll, List.foldlM_cons]
      rfl
    rw [e]
    unfold LPulse.add
    by_cases h : p.l0 = q.l0
    · rw [if_neg (not_not.mpr h), Option.bind_some]
      obtain ⟨h1, h2⟩ := ih { l0 := p.l0, pol := .linear, env := fun xi r z => p.env xi r z + q.env xi r z, xiC := none }
      refine ⟨?_, fun s hs => ?_⟩
      · rw [h1]
        simp [h]
      · obtain ⟨h3, h4⟩ := h2 s hs
        refine ⟨h3, fun xi r z => ?_⟩
        rw [h4, List.map_cons, List.sum_cons]
        ring
    · rw [if_pos h, Option.bind_none]
      exact ⟨by simp [Ne.symm h], fun s hs => by cases hs⟩

/-- The order does not matter: neither for the error nor for the envelope. -/
theorem add_order (p q : LPulse) (l l' : List LPulse) (h : (p :: l).Perm (q :: l')) :
    (p.addAll l = none ↔ q.addAll l' = none) ∧
    ∀ s s', p.addAll l = some s → q.addAll l' = some s' → s.l0 = s'.l0 ∧ ∀ xi r z, s.env xi r z = s'.env xi r z := by
  have same : ∀ (p q : LPulse) (l l' : List LPulse), (p :: l).Perm (q :: l') → p.addAll l = none → q.addAll l' = none := by
    intro p q l l' h hn
    by_contra hq
    rw [(addAll_spec q l').1] at hq
    push Not at hq
    obtain ⟨x, hx, hne⟩ := (addAll_spec p l).1.mp hn
    have all : ∀ y ∈ p :: l, y.l0 = q.l0 := by
      intro y hy
      rcases List.mem_cons.mp (h.subset hy) with rfl | hy'
      · rfl
      · exact hq y hy'
    exact hne ((all x (List.mem_cons_of_mem _ hx)).trans (all p List.mem_cons_self).symm)
  refine ⟨⟨same p q l l' h, same q p l' l h.symm⟩, fun s s' hs hs' => ?_⟩
  obtain ⟨h1, h2⟩ := (addAll_spec p l).2 s hs
  obtain ⟨h1', h2'⟩ := (addAll_spec q l').2 s' hs'
  have hno : ¬ q.addAll l' = none := by rw [hs']; simp
  rw [(addAll_spec q l').1] at hno
  push Not at hno
  refine ⟨?_, fun xi r z => ?_⟩
  · rw [h1, h1']
    rcases List.mem_cons.mp (h.subset List.mem_cons_self) with hp | hp
    · rw [hp]
    · exact hno p hp
  · rw [h2, h2', ← List.sum_cons, ← List.sum_cons]
    exact ((h.map fun q : LPulse => q.env xi r z).sum_eq)

/-- Grouping does not matter for the envelope. -/
theorem add_assoc_env (p q r s t u v : LPulse) (h1 : p.add q = some s) (h2 : s.add r = some t) (h3 : q.add r = some u)
    (h4 : p.add u = some v) (xi x z : ℝ) : t.env xi x z = v.env xi x z ∧ t.l0 = v.l0 := by
  unfold LPulse.add at *
  split_ifs at h1 h2 h3 h4
  cases h1
  cases h2
  cases h3
  cases h4
  exact ⟨add_assoc _ _ _, rfl⟩

/-- Partial: pulses with linear polarization keep it.  Missing: circular polarization. -/
theorem add_pol_partial (p q s : LPulse) (h : p.add q = some s) (hp : p.pol = .linear) (hq : q.pol = .linear) :
    s.pol = p.pol ∧ s.pol = q.pol := by
  unfold LPulse.add at h
  split_ifs at h
  cases h
  exact ⟨hp.symm, hq.symm⟩

/-- The sum of two circularly polarized pulses is linearly polarized. -/
theorem add_pol_violated : ∃ p q s : LPulse, p.pol = .circular ∧ q.pol = .circular ∧ p.add q = some s ∧ s.pol = .linear :=
  ⟨⟨1, .circular, fun _ _ _ => 1, some 0⟩, ⟨1, .circular, fun _ _ _ => 1, some 0⟩,
    ⟨1, .linear, fun _ _ _ => 1 + 1, none⟩, rfl, rfl, by simp [LPulse.add], rfl⟩

/-- The sum of two pulses has no attribute `xi_c`, which the simple blowout model reads. -/
theorem add_xiC_violated (p q s : LPulse) (h : p.add q = some s) : s.xiC = none := by
  unfold LPulse.add at h
  split_ifs at h
  cases h
  rfl

/-! ### C54 -/

/-- Parameters that describe a pulse. -/
structure GaussPar.Ok (g : GaussPar) : Prop where
  c : 0 < g.c
  w0 : 0 < g.w0
  tau : 0 < g.tau
  l0 : 0 < g.l0

example : GaussPar.Ok ⟨3e8, 0, 2, 2e-5, 3e-14, 1e-3, 8e-7, 0.5, .circular⟩ :=
  ⟨by norm_num, by norm_num, by norm_num, by norm_num⟩

namespace GaussPar

theorem Ok.zR_pos {g : GaussPar} (h : g.Ok) : 0 < g.zR := by
  have := h.w0
  have := h.l0
  have := Real.pi_pos
  unfold zR
  positivity

/-- Distance from the focus in Rayleigh lengths. -/
noncomputable def zeta (g : GaussPar) (xi z : ℝ) : ℝ := (xi - g.xiC + z - g.zFoc) / g.zR

/-- The transverse size. -/
noncomputable def width (g : GaussPar) (xi z : ℝ) : ℝ := g.w0 * Real.sqrt (1 + g.zeta xi z ^ 2)

theorem diff_eq (g : GaussPar) (xi z : ℝ) : g.diff xi z = 1 + I * (g.zeta xi z : ℂ) := by
  unfold diff zeta
  push_cast
  ring

theorem diff_normSq (g : GaussPar) (xi z : ℝ) : Complex.normSq (g.diff xi z) = 1 + g.zeta xi z ^ 2 := by
  rw [diff_eq, Complex.normSq_apply]
  simp
  ring

theorem diff_norm (g : GaussPar) (xi z : ℝ) : ‖g.diff xi z‖ = Real.sqrt (1 + g.zeta xi z ^ 2) := by
  rw [← diff_normSq, Complex.normSq_eq_norm_sq, Real.sqrt_sq (norm_nonneg _)]

theorem diff_ne (g : GaussPar) (xi z : ℝ) : g.diff xi z ≠ 0 := by
  rw [Ne, ← Complex.normSq_eq_zero, diff_normSq]
  positivity

theorem diff_inv_re (g : GaussPar) (xi z : ℝ) : (g.diff xi z)⁻¹.re = 1 / (1 + g.zeta xi z ^ 2) := by
  rw [Complex.inv_re, diff_normSq, diff_eq]
  simp

/-- Magnitude of the envelope: a Gaussian of the given width, whose amplitude is inverse to it. -/
theorem gaussian_magnitude {g : GaussPar} (h : g.Ok) (xi r z : ℝ) :
    ‖g.gaussEnv xi r z‖ = |g.a0| * (g.w0 / g.width xi z) * Real.exp (-(r / g.width xi z) ^ 2) *
      Real.exp (-(xi - g.xiC) ^ 2 / (2 * sz g.c g.tau ^ 2)) := by
  have hw := h.w0
  have hs : 0 < Real.sqrt (1 + g.zeta xi z ^ 2) := Real.sqrt_pos.mpr (by positivity)
  have hss : Real.sqrt (1 + g.zeta xi z ^ 2) ^ 2 = 1 + g.zeta xi z ^ 2 := Real.sq_sqrt (by positivity)
  unfold gaussEnv
  rw [norm_mul, norm_div, Complex.norm_real, Real.norm_eq_abs, diff_norm, Complex.norm_exp]
  have hre : (-I * g.cep + -(r : ℂ) ^ 2 / ((g.w0 : ℂ) ^ 2 * g.diff xi z) +
      ((-(xi - g.xiC) ^ 2 / (2 * sz g.c g.tau ^ 2) : ℝ) : ℂ)).re =
      -(r / g.width xi z) ^ 2 + -(xi - g.xiC) ^ 2 / (2 * sz g.c g.tau ^ 2) := by
    have e1 : -(r : ℂ) ^ 2 / ((g.w0 : ℂ) ^ 2 * g.diff xi z) = ((-r ^ 2 / g.w0 ^ 2 : ℝ) : ℂ) * (g.diff xi z)⁻¹ := by
      push_cast
      rw [← div_div, div_eq_mul_inv]
    rw [Complex.add_re, Complex.add_re, e1, Complex.re_ofReal_mul, Complex.ofReal_re, diff_inv_re]
    have e2 : (-I * (g.cep : ℂ)).re = 0 := by simp
    rw [e2]
    unfold width
    rw [div_pow, mul_pow, hss]
    field_simp
    ring
  rw [hre, Real.exp_add]
  unfold width
  field_simp

/-- At focus, on axis and in the centre the magnitude is `a_0`. -/
theorem gaussian_peak {g : GaussPar} (h : g.Ok) (z : ℝ) (hz : z = g.zFoc) : ‖g.gaussEnv g.xiC 0 z‖ = |g.a0| := by
  have hw := h.w0
  rw [gaussian_magnitude h]
  have : g.zeta g.xiC z = 0 := by unfold zeta; rw [hz]; simp
  unfold width
  rw [this]
  simp [hw.ne']

theorem width_ge {g : GaussPar} (h : g.Ok) (xi z : ℝ) : g.w0 ≤ g.width xi z := by
  have hw := h.w0
  unfold width
  have : 1 ≤ Real.sqrt (1 + g.zeta xi z ^ 2) := by
    rw [Real.one_le_sqrt]
    nlinarith [sq_nonneg (g.zeta xi z)]
  nlinarith

/-- The magnitude is nowhere larger. -/
theorem gaussian_le {g : GaussPar} (h : g.Ok) (xi r z : ℝ) : ‖g.gaussEnv xi r z‖ ≤ |g.a0| := by
  have hw := h.w0
  have hw' := width_ge h xi z
  rw [gaussian_magnitude h]
  have h1 : g.w0 / g.width xi z ≤ 1 := div_le_one_of_le₀ hw' (by linarith)
  have h1' : 0 ≤ g.w0 / g.width xi z := div_nonneg hw.le (by linarith)
  have h2 : Real.exp (-(r / g.width xi z) ^ 2) ≤ 1 := Real.exp_le_one_iff.mpr (by nlinarith [sq_nonneg (r / g.width xi z)])
  have h3 : Real.exp (-(xi - g.xiC) ^ 2 / (2 * sz g.c g.tau ^ 2)) ≤ 1 := by
    apply Real.exp_le_one_iff.mpr
    apply div_nonpos_of_nonpos_of_nonneg
    · nlinarith [sq_nonneg (xi - g.xiC)]
    · positivity
  have h2' := (Real.exp_pos (-(r / g.width xi z) ^ 2)).le
  have h3' := (Real.exp_pos (-(xi - g.xiC) ^ 2 / (2 * sz g.c g.tau ^ 2))).le
  have ha := abs_nonneg g.a0
  calc |g.a0| * (g.w0 / g.width xi z) * Real.exp (-(r / g.width xi z) ^ 2) *
        Real.exp (-(xi - g.xiC) ^ 2 / (2 * sz g.c g.tau ^ 2))
      ≤ |g.a0| * 1 * 1 * 1 := by gcongr
    _ = |g.a0| := by ring

theorem sz_sq {g : GaussPar} : sz g.c g.tau ^ 2 = (g.tau * g.c) ^ 2 / (4 * Real.log 2) := by
  have hl : 0 < Real.log 2 := Real.log_pos (by norm_num)
  unfold sz
  rw [mul_pow, div_pow, Real.sq_sqrt (by norm_num : (0 : ℝ) ≤ 2), mul_pow 2, Real.sq_sqrt (by positivity : 0 ≤ 2 * Real.log 2)]
  field_simp
  ring

/-- `tau` is the full width at half maximum of the intensity. -/
theorem gaussian_fwhm {g : GaussPar} (h : g.Ok) (r : ℝ) (z d : ℝ) (hd : d = g.c * g.tau / 2 ∨ d = -(g.c * g.tau / 2)) :
    ‖g.gaussEnv (g.xiC + d) r (z - d)‖ ^ 2 = ‖g.gaussEnv g.xiC r z‖ ^ 2 / 2 := by
  have hl : 0 < Real.log 2 := Real.log_pos (by norm_num)
  have hc := h.c
  have ht := h.tau
  rw [gaussian_magnitude h, gaussian_magnitude h]
  have e : g.width (g.xiC + d) (z - d) = g.width g.xiC z := by
    unfold width zeta
    congr 5
    ring
  have e2 : Real.exp (-(g.xiC + d - g.xiC) ^ 2 / (2 * sz g.c g.tau ^ 2)) ^ 2 = 1 / 2 := by
    rw [← Real.exp_nat_mul, sz_sq]
    have : ((2 : ℕ) : ℝ) * (-(g.xiC + d - g.xiC) ^ 2 / (2 * ((g.tau * g.c) ^ 2 / (4 * Real.log 2)))) = -Real.log 2 := by
      rcases hd with rfl | rfl <;>
      · push_cast
        field_simp
        ring
    rw [this, Real.exp_neg, Real.exp_log (by norm_num)]
    norm_num
  rw [e, mul_pow, e2, mul_pow]
  simp
  ring

/-- The power in a transverse plane does not depend on the distance from the focus. -/
theorem gaussian_power {g : GaussPar} (h : g.Ok) (xi z : ℝ) :
    ∫ r in Set.Ioi (0 : ℝ), r * ‖g.gaussEnv xi r z‖ ^ 2 =
      g.a0 ^ 2 * g.w0 ^ 2 / 4 * Real.exp (-(xi - g.xiC) ^ 2 / sz g.c g.tau ^ 2) := by
  have hw := h.w0
  have hw' : 0 < g.width xi z := lt_of_lt_of_le hw (width_ge h xi z)
  obtain ⟨b, hb⟩ : ∃ b : ℝ, b = 2 / g.width xi z ^ 2 := ⟨_, rfl⟩
  have hbp : 0 < b := by rw [hb]; positivity
  have key : ∫ r in Set.Ioi (0 : ℝ), r * Real.exp (-b * r ^ 2) = (2 * b)⁻¹ := by
    have h1 := integral_mul_cexp_neg_mul_sq (b := (b : ℂ)) (by simpa using hbp)
    have h2 : ∀ r : ℝ, (r : ℂ) * Complex.exp (-(b : ℂ) * (r : ℂ) ^ 2) = ((r * Real.exp (-b * r ^ 2) : ℝ) : ℂ) := by
      intro r
      push_cast
      rfl
    simp only [h2] at h1
    rw [integral_complex_ofReal] at h1
    exact_mod_cast h1
  obtain ⟨C, hC⟩ : ∃ C : ℝ, C = (|g.a0| * (g.w0 / g.width xi z) *
    Real.exp (-(xi - g.xiC) ^ 2 / (2 * sz g.c g.tau ^ 2))) ^ 2 := ⟨_, rfl⟩
  have e : ∀ r : ℝ, r * ‖g.gaussEnv xi r z‖ ^ 2 = C * (r * Real.exp (-b * r ^ 2)) := by
    intro r
    rw [gaussian_magnitude h, hC, hb]
    have : Real.exp (-(2 / g.width xi z ^ 2) * r ^ 2) = Real.exp (-(r / g.width xi z) ^ 2) ^ 2 := by
      rw [← Real.exp_nat_mul]
      congr 1
      push_cast
      field_simp
    rw [this]
    ring
  simp only [e]
  rw [MeasureTheory.integral_const_mul, key, hC, hb]
  have e3 : Real.exp (-(xi - g.xiC) ^ 2 / sz g.c g.tau ^ 2) =
      Real.exp (-(xi - g.xiC) ^ 2 / (2 * sz g.c g.tau ^ 2)) ^ 2 := by
    rw [← Real.exp_nat_mul]
    congr 1
    push_cast
    rw [← div_div]
    ring
  rw [e3, mul_pow, mul_pow, sq_abs]
  field_simp
  ring

/-! ### C89 -/

/-- A Gaussian pulse solves the paraxial wave equation: with `r`-derivatives `a_r`, `a_rr`
and the derivative `a_z` along the propagation,
`a_rr + a_r / r + 2 i k a_z = 0`, where `k` is the wave number. -/
theorem gaussian_paraxial {g : GaussPar} (h : g.Ok) (xi : ℝ) :
    ∃ ar arr az : ℝ → ℝ → ℂ, ∀ r z : ℝ,
      HasDerivAt (fun r => g.gaussEnv xi r z) (ar r z) r ∧
      HasDerivAt (fun r => ar r z) (arr r z) r ∧
      HasDerivAt (fun z => g.gaussEnv xi r z) (az r z) z ∧
      (r ≠ 0 → arr r z + ar r z / r + 2 * I * (2 * Real.pi / g.l0) * az r z = 0) := by
  have hw := h.w0
  have hz := h.zR_pos
  have hl := h.l0
  have hwc : (g.w0 : ℂ) ≠ 0 := by exact_mod_cast hw.ne'
  have hzc : (g.zR : ℂ) ≠ 0 := by exact_mod_cast hz.ne'
  have hlc : (g.l0 : ℂ) ≠ 0 := by exact_mod_cast hl.ne'
  have hpc : (Real.pi : ℂ) ≠ 0 := by exact_mod_cast Real.pi_ne_zero
  have hzr : (g.zR : ℂ) = Real.pi * g.w0 ^ 2 / g.l0 := by unfold zR; push_cast; rfl
  refine ⟨fun r z => g.gaussEnv xi r z * (-2 * r / (g.w0 ^ 2 * g.diff xi z)),
    fun r z => g.gaussEnv xi r z * ((-2 * r / (g.w0 ^ 2 * g.diff xi z)) ^ 2 + -2 / (g.w0 ^ 2 * g.diff xi z)),
    fun r z => g.gaussEnv xi r z * (I / g.zR) * (r ^ 2 / (g.w0 ^ 2 * g.diff xi z ^ 2) - 1 / g.diff xi z), fun r z => ?_⟩
  have hq := g.diff_ne xi z
  have hid : HasDerivAt (fun r : ℝ => (r : ℂ)) 1 r := Complex.ofRealCLM.hasDerivAt
  have hidz : HasDerivAt (fun z : ℝ => (z : ℂ)) 1 z := Complex.ofRealCLM.hasDerivAt
  have dr : HasDerivAt (fun r => g.gaussEnv xi r z) (g.gaussEnv xi r z * (-2 * r / (g.w0 ^ 2 * g.diff xi z))) r := by
    have h1 : HasDerivAt (fun r : ℝ => -I * g.cep + -(r : ℂ) ^ 2 / ((g.w0 : ℂ) ^ 2 * g.diff xi z) +
        ((-(xi - g.xiC) ^ 2 / (2 * sz g.c g.tau ^ 2) : ℝ) : ℂ)) (-2 * r / (g.w0 ^ 2 * g.diff xi z)) r := by
      have h2 := ((((hid.pow 2).neg).div_const ((g.w0 : ℂ) ^ 2 * g.diff xi z)).const_add (-I * (g.cep : ℂ))).add_const
        ((-(xi - g.xiC) ^ 2 / (2 * sz g.c g.tau ^ 2) : ℝ) : ℂ)
      refine h2.congr_deriv ?_
      push_cast
      ring
    refine (h1.cexp.const_mul (g.a0 / g.diff xi z)).congr_deriv ?_
    unfold gaussEnv
    ring
  refine ⟨dr, ?_, ?_, fun hr => ?_⟩
  · have h1 : HasDerivAt (fun r : ℝ => -2 * (r : ℂ) / (g.w0 ^ 2 * g.diff xi z)) (-2 * 1 / (g.w0 ^ 2 * g.diff xi z)) r :=
      (hid.const_mul (-2)).div_const _
    refine (dr.mul h1).congr_deriv ?_
    ring
  · have hdiff : HasDerivAt (fun z : ℝ => g.diff xi z) (I / g.zR) z := by
      have h1 : HasDerivAt (fun z : ℝ => ((xi - g.xiC + z : ℝ) : ℂ)) 1 z := by
        have := hidz.const_add (((xi - g.xiC : ℝ) : ℂ))
        refine this.congr_of_eventuallyEq (Filter.Eventually.of_forall fun z => ?_)
        push_cast
        ring
      have h2 := (((h1.sub_const (g.zFoc : ℂ)).const_mul I).div_const (g.zR : ℂ)).const_add 1
      refine h2.congr_deriv ?_
      ring
    have h1 : HasDerivAt (fun z : ℝ => -I * g.cep + -(r : ℂ) ^ 2 / ((g.w0 : ℂ) ^ 2 * g.diff xi z) +
        ((-(xi - g.xiC) ^ 2 / (2 * sz g.c g.tau ^ 2) : ℝ) : ℂ)) ((r : ℂ) ^ 2 / (g.w0 ^ 2 * g.diff xi z ^ 2) * (I / g.zR)) z := by
      have h2 := (((hdiff.const_mul ((g.w0 : ℂ) ^ 2)).inv (mul_ne_zero (pow_ne_zero 2 hwc) hq)).const_mul
        (-(r : ℂ) ^ 2)).const_add (-I * (g.cep : ℂ))
      have h3 := h2.add_const ((-(xi - g.xiC) ^ 2 / (2 * sz g.c g.tau ^ 2) : ℝ) : ℂ)
      have h4 := h3.congr_of_eventuallyEq (f₁ := fun z : ℝ => -I * (g.cep : ℂ) + -(r : ℂ) ^ 2 /
        ((g.w0 : ℂ) ^ 2 * g.diff xi z) + ((-(xi - g.xiC) ^ 2 / (2 * sz g.c g.tau ^ 2) : ℝ) : ℂ))
        (Filter.Eventually.of_forall fun z => by simp only [div_eq_mul_inv, Pi.inv_apply])
      refine h4.congr_deriv ?_
      field_simp
    have h2 := ((hdiff.inv hq).const_mul (g.a0 : ℂ)).mul h1.cexp
    have h3 := h2.congr_of_eventuallyEq (f₁ := fun z : ℝ => g.gaussEnv xi r z)
        (Filter.Eventually.of_forall fun z => by
          unfold gaussEnv
          simp only [div_eq_mul_inv, Pi.mul_apply, Pi.inv_apply])
    refine h3.congr_deriv ?_
    unfold gaussEnv
    simp only [Pi.inv_apply]
    field_simp
    ring
  · have hrc : (r : ℂ) ≠ 0 := by exact_mod_cast hr
    dsimp only
    rw [hzr]
    field_simp
    have hI : I ^ 2 = -1 := Complex.I_sq
    generalize g.diff xi z = q at *
    generalize g.gaussEnv xi r z = E
    linear_combination 4 * E * (r ^ 2 - g.w0 ^ 2 * q) * hI

end GaussPar

/-! ### C53 -/

theorem laguerre_zero (p : ℕ) : laguerre p 0 = 1 := by
  unfold laguerre
  rw [Finset.sum_eq_single 0]
  · simp
  · intro k _ hk
    simp [hk]
  · simp

/-- The coefficients of the modes of the flattened Gaussian add up to one (with alternating
signs). -/
theorem flatCoeff_sum (N : ℕ) : ∑ n ∈ Finset.range (N + 1), (-1) ^ n * GaussPar.flatCoeff N n = 1 := by
  have h1 : ∀ n ∈ Finset.range (N + 1), (-1) ^ n * GaussPar.flatCoeff N n =
      (∑ m ∈ Finset.Ico n (N + 1), (0.5 : ℝ) ^ m * (m.choose n : ℝ)) / (N + 1) := by
    intro n _
    unfold GaussPar.flatCoeff
    rw [mul_div_assoc, ← mul_assoc, ← mul_pow]
    norm_num
  rw [Finset.sum_congr rfl h1, ← Finset.sum_div]
  have h2 : ∑ n ∈ Finset.range (N + 1), ∑ m ∈ Finset.Ico n (N + 1), (0.5 : ℝ) ^ m * (m.choose n : ℝ) =
      ∑ m ∈ Finset.range (N + 1), ∑ n ∈ Finset.range (m + 1), (0.5 : ℝ) ^ m * (m.choose n : ℝ) := by
    apply Finset.sum_comm'
    intro n m
    simp only [Finset.mem_range, Finset.mem_Ico]
    omega
  have h3 : ∀ m : ℕ, ∑ n ∈ Finset.range (m + 1), (0.5 : ℝ) ^ m * (m.choose n : ℝ) = 1 := by
    intro m
    rw [← Finset.mul_sum]
    have := Nat.sum_range_choose m
    have h4 : ∑ n ∈ Finset.range (m + 1), (m.choose n : ℝ) = 2 ^ m := by exact_mod_cast this
    rw [h4, ← mul_pow]
    norm_num
  rw [h2, Finset.sum_congr rfl fun m _ => h3 m]
  rw [Finset.sum_const, Finset.card_range, nsmul_eq_mul, mul_one]
  push_cast
  exact div_self (by positivity)

theorem sum_map_range (f : ℕ → ℂ) (N : ℕ) : ((List.range N).map f).sum = ∑ n ∈ Finset.range N, f n := by
  induction N with
  | zero => rfl
  | succ N ih => rw [List.range_succ, List.map_append, List.sum_append, ih, Finset.sum_range_succ]; simp

theorem flattened_env (g : GaussPar) (N : ℕ) : ∃ s, g.flattened N = some s ∧ s.l0 = g.l0 ∧ s.pol = g.pol ∧
    ∀ xi r z, s.env xi r z = ∑ n ∈ Finset.range (N + 1), (g.flatMode N n).env xi r z := by
  obtain ⟨h1, h2⟩ := addAll_spec (g.flatMode N 0) ((List.range N).map fun n => g.flatMode N (n + 1))
  unfold GaussPar.flattened
  have hl : ∀ n, (g.flatMode N n).l0 = g.l0 := fun n => rfl
  rcases hs : (g.flatMode N 0).addAll ((List.range N).map fun n => g.flatMode N (n + 1)) with _ | s
  · obtain ⟨q, hq, hne⟩ := h1.mp hs
    obtain ⟨n, _, rfl⟩ := List.mem_map.mp hq
    exact absurd ((hl _).trans (hl _).symm) hne
  · refine ⟨_, rfl, rfl, rfl, fun xi r z => ?_⟩
    obtain ⟨_, h3⟩ := h2 s hs
    dsimp only
    rw [h3, Finset.sum_range_succ', add_comm, List.map_map, sum_map_range]
    rfl

/-- At focus, on axis and in the centre, the flattened Gaussian pulse of any order has the
amplitude `a_0`, with the requested phase. -/
theorem flattened_peak (g : GaussPar) (N : ℕ) : ∃ s, g.flattened N = some s ∧
    s.env g.xiC 0 g.zFoc = g.a0 * Complex.exp (-I * g.cep) ∧ ‖s.env g.xiC 0 g.zFoc‖ = |g.a0| := by
  obtain ⟨s, hs, _, _, henv⟩ := flattened_env g N
  have key : s.env g.xiC 0 g.zFoc = g.a0 * Complex.exp (-I * g.cep) := by
    rw [henv]
    have h1 : ∀ n ∈ Finset.range (N + 1), (g.flatMode N n).env g.xiC 0 g.zFoc =
        g.a0 * Complex.exp (-I * g.cep) * (((-1) ^ n * GaussPar.flatCoeff N n : ℝ) : ℂ) := by
      intro n _
      simp only [GaussPar.flatMode, GaussPar.laguerreGauss, GaussPar.lgEnv, GaussPar.diff]
      have hpi : Complex.exp (-(I * (n * Real.pi))) = (-1) ^ n := by
        have e1 : -(I * (n * (Real.pi : ℂ))) = (n : ℂ) * (-(Real.pi * I)) := by ring
        rw [e1, Complex.exp_nat_mul, Complex.exp_neg, Complex.exp_pi_mul_I]
        norm_num
      have e2 : (2 * (n : ℝ) * Real.pi / 2) = n * Real.pi := by ring
      rw [e2]
      simp [laguerre_zero]
      rw [mul_add, neg_add, Complex.exp_add, hpi]
      ring
    rw [Finset.sum_congr rfl h1, ← Finset.mul_sum]
    have h2 := flatCoeff_sum N
    have h3 : ∑ n ∈ Finset.range (N + 1), (((-1) ^ n * GaussPar.flatCoeff N n : ℝ) : ℂ) = 1 := by
      rw [← Complex.ofReal_sum, h2, Complex.ofReal_one]
    rw [h3, mul_one]
  refine ⟨s, hs, key, ?_⟩
  rw [key, norm_mul, Complex.norm_exp, Complex.norm_real, Real.norm_eq_abs]
  simp

/-! ### C55 -/

section
variable {e me eps0 c l0 : ℝ}

theorem groupVelocity_eq (hm : 0 < me) (he : 0 < eps0) (hc : 0 < c) (hl : 0 < l0) {np : ℝ} (hn : 0 ≤ np) :
    groupVelocity e me eps0 c l0 np =
      (Real.sqrt (1 + np * e ^ 2 * l0 ^ 2 / (me * eps0 * (2 * Real.pi * c) ^ 2)))⁻¹ := by
  have hp := Real.pi_pos
  unfold groupVelocity
  dsimp only
  rw [Real.sq_sqrt (by positivity)]
  have hk : 0 < 2 * Real.pi / l0 * c := by positivity
  have e1 : np * e ^ 2 / (me * eps0) + (2 * Real.pi / l0) ^ 2 * c ^ 2 =
      (2 * Real.pi / l0 * c) ^ 2 * (1 + np * e ^ 2 * l0 ^ 2 / (me * eps0 * (2 * Real.pi * c) ^ 2)) := by
    field_simp
    ring
  have hs : 0 < Real.sqrt (1 + np * e ^ 2 * l0 ^ 2 / (me * eps0 * (2 * Real.pi * c) ^ 2)) :=
    Real.sqrt_pos.mpr (by positivity)
  rw [e1, Real.sqrt_mul (sq_nonneg _), Real.sqrt_sq hk.le]
  field_simp

/-- The group velocity is positive, at most the speed of light (1 in the units of the code), reaches it
only in vacuum, and decreases with the density. -/
theorem group_velocity (he' : e ≠ 0) (hm : 0 < me) (he : 0 < eps0) (hc : 0 < c) (hl : 0 < l0) {n n' : ℝ} (hn : 0 ≤ n)
    (hnn : n < n') :
    0 < groupVelocity e me eps0 c l0 n ∧ groupVelocity e me eps0 c l0 n ≤ 1 ∧ groupVelocity e me eps0 c l0 0 = 1 ∧
    groupVelocity e me eps0 c l0 n' < groupVelocity e me eps0 c l0 n := by
  have hp := Real.pi_pos
  have he2 : 0 < e ^ 2 := by positivity
  rw [groupVelocity_eq hm he hc hl hn, groupVelocity_eq hm he hc hl le_rfl, groupVelocity_eq hm he hc hl (hn.trans hnn.le)]
  have hs : 0 < Real.sqrt (1 + n * e ^ 2 * l0 ^ 2 / (me * eps0 * (2 * Real.pi * c) ^ 2)) :=
    Real.sqrt_pos.mpr (by positivity)
  refine ⟨by positivity, ?_, by simp, ?_⟩
  · apply inv_le_one_of_one_le₀
    rw [Real.one_le_sqrt]
    have : 0 ≤ n * e ^ 2 * l0 ^ 2 / (me * eps0 * (2 * Real.pi * c) ^ 2) := by positivity
    linarith
  · apply inv_strictAnti₀ hs
    apply Real.sqrt_lt_sqrt (by positivity)
    have : n * e ^ 2 * l0 ^ 2 / (me * eps0 * (2 * Real.pi * c) ^ 2) <
        n' * e ^ 2 * l0 ^ 2 / (me * eps0 * (2 * Real.pi * c) ^ 2) := by gcongr
    linarith

end

end WakeT.Laser
