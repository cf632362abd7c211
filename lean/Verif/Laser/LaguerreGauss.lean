import Verif.Laser.ProfileProps
import Mathlib.MeasureTheory.Integral.Gamma
import Mathlib.Algebra.Group.ForwardDiff
import Mathlib.Analysis.SpecialFunctions.Complex.Log

/-! # Laguerre-Gauss and flattened Gaussian pulses (C110, C111, C112) -/

set_option linter.unusedSectionVars false

namespace WakeT.Laser

open Complex (I)

/-! ### Laguerre polynomials -/

/-- The coefficients. -/
noncomputable def lagC (p k : ℕ) : ℝ := (-1) ^ k * (p.choose k : ℝ) / k.factorial

theorem laguerre_eq (p : ℕ) (x : ℝ) : laguerre p x = ∑ k ∈ Finset.range (p + 1), lagC p k * x ^ k := by
  unfold laguerre
  refine Finset.sum_congr rfl fun k _ => ?_
  unfold lagC
  rw [neg_pow]
  ring

theorem lagC_succ (p k : ℕ) : ((k : ℝ) + 1) ^ 2 * lagC p (k + 1) = -((p : ℝ) - k) * lagC p k := by
  unfold lagC
  have h : ((p.choose (k + 1) : ℕ) : ℝ) * (k + 1) = p.choose k * ((p : ℝ) - k) := by
    rcases le_or_gt k p with hk | hk
    · have := Nat.choose_succ_right_eq p k
      rw [← Nat.cast_sub hk]
      exact_mod_cast this
    · rw [Nat.choose_eq_zero_of_lt hk, Nat.choose_eq_zero_of_lt (by omega)]
      simp
  have hf : ((k.factorial : ℕ) : ℝ) ≠ 0 := by exact_mod_cast k.factorial_ne_zero
  have hk : ((k : ℝ) + 1) ≠ 0 := by positivity
  rw [Nat.factorial_succ]
  push_cast
  field_simp
  rw [pow_succ]
  linear_combination (-(-1) ^ k) * h

/-- First derivative. -/
noncomputable def lag1 (p : ℕ) (x : ℝ) : ℝ := ∑ k ∈ Finset.range (p + 1), lagC p k * (k * x ^ (k - 1))
/-- Second derivative. -/
noncomputable def lag2 (p : ℕ) (x : ℝ) : ℝ :=
  ∑ k ∈ Finset.range (p + 1), lagC p k * (k * (((k - 1 : ℕ) : ℝ) * x ^ (k - 1 - 1)))

theorem hasDerivAt_laguerre (p : ℕ) (x : ℝ) : HasDerivAt (laguerre p) (lag1 p x) x := by
  have h := HasDerivAt.fun_sum (u := Finset.range (p + 1)) (A := fun k x => lagC p k * x ^ k)
    (A' := fun k => lagC p k * (k * x ^ (k - 1))) (x := x) fun k _ => (hasDerivAt_pow k x).const_mul (lagC p k)
  exact h.congr_of_eventuallyEq (Filter.Eventually.of_forall fun x => laguerre_eq p x)

theorem hasDerivAt_lag1 (p : ℕ) (x : ℝ) : HasDerivAt (lag1 p) (lag2 p x) x := by
  exact HasDerivAt.fun_sum (u := Finset.range (p + 1)) (A := fun k x => lagC p k * (k * x ^ (k - 1)))
    (A' := fun k => lagC p k * (k * (((k - 1 : ℕ) : ℝ) * x ^ (k - 1 - 1)))) (x := x) fun k _ =>
      ((hasDerivAt_pow (k - 1) x).const_mul (k : ℝ)).const_mul (lagC p k)

/-- Laguerre's equation. -/
theorem laguerre_ode (p : ℕ) (x : ℝ) : x * lag2 p x + (1 - x) * lag1 p x + p * laguerre p x = 0 := by
  have h1 : x * lag2 p x + lag1 p x = ∑ k ∈ Finset.range (p + 1), (k : ℝ) ^ 2 * lagC p k * x ^ (k - 1) := by
    unfold lag2 lag1
    rw [Finset.mul_sum, ← Finset.sum_add_distrib]
    refine Finset.sum_congr rfl fun k _ => ?_
    rcases k with _ | _ | k
    · simp
    · simp
    · push_cast [Nat.add_sub_cancel]
      ring
  have h2 : -x * lag1 p x + p * laguerre p x = ∑ k ∈ Finset.range (p + 1), ((p : ℝ) - k) * lagC p k * x ^ k := by
    rw [laguerre_eq]
    unfold lag1
    rw [Finset.mul_sum, Finset.mul_sum, ← Finset.sum_add_distrib]
    refine Finset.sum_congr rfl fun k _ => ?_
    rcases k with _ | k
    · simp
    · rw [Nat.add_sub_cancel]
      push_cast
      ring
  have h3 : ∑ k ∈ Finset.range (p + 1), (k : ℝ) ^ 2 * lagC p k * x ^ (k - 1) =
      -∑ k ∈ Finset.range (p + 1), ((p : ℝ) - k) * lagC p k * x ^ k := by
    rw [Finset.sum_range_succ', Finset.sum_range_succ]
    simp only [Nat.cast_zero]
    rw [Finset.sum_congr rfl (g := fun k => -(((p : ℝ) - k) * lagC p k * x ^ k))]
    · rw [Finset.sum_neg_distrib]; ring
    · intro k _
      rw [Nat.add_sub_cancel]
      push_cast
      rw [lagC_succ]
      ring
  linear_combination h1 + h2 + h3

/-! ### Orthogonality -/

/-- Differences of binomial coefficients. -/
theorem alternating_choose (p j : ℕ) (hj : j ≤ p) :
    ∑ k ∈ Finset.range (p + 1), (-1 : ℝ) ^ k * (p.choose k : ℝ) * ((j + k).choose j : ℝ) = if j = p then (-1) ^ p else 0 := by
  have h : ∀ y : ℕ, (fwdDiff 1)^[p] (fun x ↦ x.choose j : ℕ → ℤ) y = if j = p then 1 else 0 := by
    intro y
    obtain ⟨d, rfl⟩ := Nat.exists_eq_add_of_le hj
    rw [add_comm j d, Function.iterate_add_apply]
    have := fwdDiff_iter_choose 0 j
    rw [add_zero] at this
    rw [this]
    rcases d with _ | d
    · simp
    · rw [Function.iterate_succ_apply]
      have e : (fwdDiff 1 fun x : ℕ => ((x.choose 0 : ℕ) : ℤ)) = fun _ => 0 := by
        funext x; simp [fwdDiff]
      rw [e]
      rw [if_neg (by omega)]
      rw [fwdDiff_iter_eq_sum_shift]
      simp
  have h2 := h j
  rw [fwdDiff_iter_eq_sum_shift] at h2
  have h3 : (∑ k ∈ Finset.range (p + 1), ((-1 : ℝ) ^ (p - k) * (p.choose k : ℝ)) * ((j + k).choose j : ℝ)) =
      if j = p then 1 else 0 := by
    have h4 := congrArg (fun n : ℤ => (n : ℝ)) h2
    push_cast [smul_eq_mul, mul_one] at h4
    simpa using h4
  have h5 : ∀ k ∈ Finset.range (p + 1), (-1 : ℝ) ^ k * (p.choose k : ℝ) * ((j + k).choose j : ℝ) =
      (-1) ^ p * (((-1 : ℝ) ^ (p - k) * (p.choose k : ℝ)) * ((j + k).choose j : ℝ)) := by
    intro k hk
    have hk : k ≤ p := by simpa [Nat.lt_succ_iff] using hk
    have : (-1 : ℝ) ^ p * (-1) ^ (p - k) = (-1) ^ k := by
      rw [← pow_add, show p + (p - k) = 2 * (p - k) + k by omega, pow_add, pow_mul]
      norm_num
    rw [← this]
    ring
  rw [Finset.sum_congr rfl h5, ← Finset.mul_sum, h3]
  split_ifs <;> ring

/-- The coefficients of the square, weighted with factorials, add up to one: Laguerre
polynomials are normalised. -/
theorem lagC_norm (p : ℕ) : ∑ j ∈ Finset.range (p + 1), ∑ k ∈ Finset.range (p + 1),
    lagC p j * lagC p k * ((j + k).factorial : ℝ) = 1 := by
  have h1 : ∀ j ∈ Finset.range (p + 1), ∑ k ∈ Finset.range (p + 1), lagC p j * lagC p k * ((j + k).factorial : ℝ) =
      if j = p then 1 else 0 := by
    intro j hj
    have hj : j ≤ p := by simpa [Nat.lt_succ_iff] using hj
    have h2 : ∀ k ∈ Finset.range (p + 1), lagC p j * lagC p k * ((j + k).factorial : ℝ) =
        (-1) ^ j * (p.choose j : ℝ) * ((-1 : ℝ) ^ k * (p.choose k : ℝ) * ((j + k).choose j : ℝ)) := by
      intro k _
      have h3 : (((j + k).choose j : ℕ) : ℝ) * (j.factorial : ℝ) * (k.factorial : ℝ) = ((j + k).factorial : ℝ) := by
        have := Nat.choose_mul_factorial_mul_factorial (Nat.le_add_right j k)
        rw [Nat.add_sub_cancel_left] at this
        exact_mod_cast this
      have f1 : ((j.factorial : ℕ) : ℝ) ≠ 0 := by exact_mod_cast j.factorial_ne_zero
      have f2 : ((k.factorial : ℕ) : ℝ) ≠ 0 := by exact_mod_cast k.factorial_ne_zero
      unfold lagC
      rw [← h3]
      field_simp
    rw [Finset.sum_congr rfl h2, ← Finset.mul_sum, alternating_choose p j hj]
    split_ifs with h
    · subst h
      rw [Nat.choose_self, Nat.cast_one, mul_one, ← mul_pow]
      norm_num
    · ring
  rw [Finset.sum_congr rfl h1, Finset.sum_ite_eq']
  simp

/-- Binomial inversion: powers as sums of Laguerre polynomials. -/
theorem laguerre_inversion (m : ℕ) (y : ℝ) :
    ∑ n ∈ Finset.range (m + 1), (-1 : ℝ) ^ n * (m.choose n : ℝ) * laguerre n y = y ^ m / m.factorial := by
  have h1 : ∀ n ∈ Finset.range (m + 1), (-1 : ℝ) ^ n * (m.choose n : ℝ) * laguerre n y =
      ∑ k ∈ Finset.range (m + 1), (-y) ^ k / k.factorial * ((-1 : ℝ) ^ n * (m.choose n : ℝ) * (n.choose k : ℝ)) := by
    intro n hn
    have hn : n ≤ m := by simpa [Nat.lt_succ_iff] using hn
    unfold laguerre
    rw [← Finset.sum_subset (s₁ := Finset.range (n + 1)) (s₂ := Finset.range (m + 1))]
    · rw [Finset.mul_sum]
      refine Finset.sum_congr rfl fun k _ => by ring
    · intro k; simp only [Finset.mem_range]; omega
    · intro k _ hk
      rw [Nat.choose_eq_zero_of_lt (n := n) (k := k) (by simpa [Nat.lt_succ_iff] using hk)]
      simp
  rw [Finset.sum_congr rfl h1, Finset.sum_comm]
  have h2 : ∀ k ∈ Finset.range (m + 1), ∑ n ∈ Finset.range (m + 1),
      (-y) ^ k / k.factorial * ((-1 : ℝ) ^ n * (m.choose n : ℝ) * (n.choose k : ℝ)) =
      if k = m then y ^ m / m.factorial else 0 := by
    intro k _
    rw [← Finset.mul_sum]
    have h3 := fwdDiff_iter_choose_zero k m
    rw [fwdDiff_iter_eq_sum_shift] at h3
    have h4 := congrArg (fun n : ℤ => (n : ℝ)) h3
    push_cast [smul_eq_mul, mul_one, zero_add] at h4
    have h5 : ∑ n ∈ Finset.range (m + 1), (-1 : ℝ) ^ n * (m.choose n : ℝ) * (n.choose k : ℝ) =
        (-1) ^ m * (if m = k then 1 else 0) := by
      rw [← h4, Finset.mul_sum]
      refine Finset.sum_congr rfl fun n hn => ?_
      have hn : n ≤ m := by simpa [Nat.lt_succ_iff] using hn
      have : (-1 : ℝ) ^ m * (-1) ^ (m - n) = (-1) ^ n := by
        rw [← pow_add, show m + (m - n) = 2 * (m - n) + n by omega, pow_add, pow_mul]
        norm_num
      rw [← this]
      ring
    rw [h5]
    by_cases hk : k = m
    · subst hk
      rw [if_pos rfl, if_pos rfl, neg_pow]
      have : (-1 : ℝ) ^ k * (-1) ^ k = 1 := by rw [← mul_pow]; norm_num
      linear_combination (y ^ k / k.factorial) * this
    · rw [if_neg (fun h => hk h.symm), if_neg hk]; ring
  rw [Finset.sum_congr rfl h2, Finset.sum_ite_eq']
  simp

namespace GaussPar
variable (g : GaussPar)

/-! ### The modes in terms of the Gaussian pulse -/

/-- The conjugate of `diff`. -/
noncomputable def diffC (xi z : ℝ) : ℂ := 1 - I * (g.zeta xi z : ℂ)

theorem diff_mul_diffC (xi z : ℝ) : g.diff xi z * g.diffC xi z = ((1 + g.zeta xi z ^ 2 : ℝ) : ℂ) := by
  rw [diff_eq, diffC]
  push_cast
  linear_combination (-(g.zeta xi z : ℂ) ^ 2) * Complex.I_sq

theorem diffC_ne (xi z : ℝ) : g.diffC xi z ≠ 0 := by
  have h := g.diff_mul_diffC xi z
  intro h0
  rw [h0, mul_zero] at h
  have : (1 + g.zeta xi z ^ 2 : ℝ) ≠ 0 := by positivity
  exact this (by exact_mod_cast h.symm)

/-- The argument of the Laguerre polynomial. -/
noncomputable def lgX (xi r z : ℝ) : ℝ := 2 * r ^ 2 / (g.w0 ^ 2 * (1 + g.zeta xi z ^ 2))

theorem gouy (p : ℕ) (xi z : ℝ) :
    Complex.exp (-(I * (2 * p) * (g.diff xi z).arg)) = (g.diffC xi z / g.diff xi z) ^ p := by
  have h1 := Complex.norm_mul_exp_arg_mul_I (g.diff xi z)
  have hq := g.diff_ne xi z
  have hn : (‖g.diff xi z‖ : ℂ) ≠ 0 := by
    have := norm_ne_zero_iff.mpr hq
    exact_mod_cast this
  have hsq : (‖g.diff xi z‖ : ℂ) ^ 2 = g.diff xi z * g.diffC xi z := by
    rw [diff_mul_diffC, ← diff_normSq, Complex.normSq_eq_norm_sq]
    push_cast
    rfl
  have h2 : Complex.exp (-(2 * ((g.diff xi z).arg * I))) = g.diffC xi z / g.diff xi z := by
    rw [Complex.exp_neg, two_mul, Complex.exp_add]
    have he := Complex.exp_ne_zero ((g.diff xi z).arg * I)
    generalize Complex.exp ((g.diff xi z).arg * I) = E at *
    rw [eq_div_iff hq]
    have hEE : (E * E) * g.diffC xi z = g.diff xi z := by
      apply mul_left_cancel₀ hq
      calc g.diff xi z * (E * E * g.diffC xi z) = (E * E) * (g.diff xi z * g.diffC xi z) := by ring
        _ = (↑‖g.diff xi z‖ * E) * (↑‖g.diff xi z‖ * E) := by rw [← hsq]; ring
        _ = g.diff xi z * g.diff xi z := by rw [h1]
    rw [inv_mul_eq_iff_eq_mul₀ (mul_ne_zero he he), hEE]
  rw [← h2, ← Complex.exp_nat_mul]
  congr 1
  ring

theorem lgEnv_eq (p : ℕ) (xi r z : ℝ) : g.lgEnv p xi r z =
    g.gaussEnv xi r z * (g.diffC xi z / g.diff xi z) ^ p * (laguerre p (g.lgX xi r z) : ℝ) := by
  have hx : 2 * r ^ 2 / (g.w0 * ‖g.diff xi z‖) ^ 2 = g.lgX xi r z := by
    rw [mul_pow, ← Complex.normSq_eq_norm_sq, diff_normSq]
    rfl
  unfold lgEnv gaussEnv
  dsimp only
  rw [hx, sub_eq_add_neg _ (I * (2 * (p : ℂ)) * _), Complex.exp_add, gouy]
  have e : -I * (g.cep : ℂ) - (r : ℂ) ^ 2 / ((g.w0 : ℂ) ^ 2 * g.diff xi z) -
      (((xi - g.xiC) ^ 2 / (2 * sz g.c g.tau ^ 2) : ℝ) : ℂ) =
      -I * g.cep + -(r : ℂ) ^ 2 / ((g.w0 : ℂ) ^ 2 * g.diff xi z) +
      ((-(xi - g.xiC) ^ 2 / (2 * sz g.c g.tau ^ 2) : ℝ) : ℂ) := by
    push_cast
    ring
  rw [e]
  ring

/-! ### C110: paraxial wave equation -/

theorem gauss_dr {g : GaussPar} (xi r z : ℝ) :
    HasDerivAt (fun r => g.gaussEnv xi r z) (g.gaussEnv xi r z * (-2 * r / (g.w0 ^ 2 * g.diff xi z))) r := by
  have hid : HasDerivAt (fun r : ℝ => (r : ℂ)) 1 r := Complex.ofRealCLM.hasDerivAt
  have h1 : HasDerivAt (fun r : ℝ => -I * g.cep + -(r : ℂ) ^ 2 / ((g.w0 : ℂ) ^ 2 * g.diff xi z) +
      ((-(xi - g.xiC) ^ 2 / (2 * sz g.c g.tau ^ 2) : ℝ) : ℂ)) (-2 * r / (g.w0 ^ 2 * g.diff xi z)) r := by
    have h2 := ((((hid.pow 2).neg).div_const ((g.w0 : ℂ) ^ 2 * g.diff xi z)).const_add (-I * (g.cep : ℂ))).add_const
      ((-(xi - g.xiC) ^ 2 / (2 * sz g.c g.tau ^ 2) : ℝ) : ℂ)
    refine h2.congr_deriv ?_
    push_cast
    ring
  refine (h1.cexp.const_mul (g.a0 / g.diff xi z)).congr_deriv ?_
  unfold gaussEnv
  ring

theorem zeta_dz (xi z : ℝ) : HasDerivAt (fun z => g.zeta xi z) (1 / g.zR) z := by
  unfold zeta
  have := (((hasDerivAt_id z).const_add (xi - g.xiC)).sub_const g.zFoc).div_const g.zR
  simpa using this

theorem diff_dz (xi z : ℝ) : HasDerivAt (fun z : ℝ => g.diff xi z) (I / g.zR) z := by
  have h := ((g.zeta_dz xi z).ofReal_comp.const_mul I).const_add 1
  have h' := h.congr_of_eventuallyEq (f₁ := fun z : ℝ => g.diff xi z)
    (Filter.Eventually.of_forall fun z => g.diff_eq xi z)
  refine h'.congr_deriv ?_
  push_cast
  ring

theorem diffC_dz (xi z : ℝ) : HasDerivAt (fun z : ℝ => g.diffC xi z) (-(I / g.zR)) z := by
  have h := ((g.zeta_dz xi z).ofReal_comp.const_mul I).const_sub 1
  refine h.congr_deriv ?_
  push_cast
  ring

theorem gauss_dz {g : GaussPar} (h : g.Ok) (xi r z : ℝ) : HasDerivAt (fun z => g.gaussEnv xi r z)
    (g.gaussEnv xi r z * (I / g.zR) * (r ^ 2 / (g.w0 ^ 2 * g.diff xi z ^ 2) - 1 / g.diff xi z)) z := by
  have hw := h.w0
  have hwc : (g.w0 : ℂ) ≠ 0 := by exact_mod_cast hw.ne'
  have hq := g.diff_ne xi z
  have hdiff := g.diff_dz xi z
  have h1 : HasDerivAt (fun z : ℝ => -I * g.cep + -(r : ℂ) ^ 2 / ((g.w0 : ℂ) ^ 2 * g.diff xi z) +
      ((-(xi - g.xiC) ^ 2 / (2 * sz g.c g.tau ^ 2) : ℝ) : ℂ)) ((r : ℂ) ^ 2 / (g.w0 ^ 2 * g.diff xi z ^ 2) * (I / g.zR)) z := by
    have h2 := (((hdiff.const_mul ((g.w0 : ℂ) ^ 2)).inv (mul_ne_zero (pow_ne_zero 2 hwc) hq)).const_mul
      (-(r : ℂ) ^ 2)).const_add (-I * (g.cep : ℂ))
    have h3 := h2.add_const ((-(xi - g.xiC) ^ 2 / (2 * sz g.c g.tau ^ 2) : ℝ) : ℂ)
    have h4 := h3.congr_of_eventuallyEq (f₁ := fun z : ℝ => -I * (g.cep : ℂ) + -(r : ℂ) ^ 2 /
      ((g.w0 : ℂ) ^ 2 * g.diff xi z) + ((-(xi - g.xiC) ^ 2 / (2 * sz g.c g.tau ^ 2) : ℝ) : ℂ))
      (Filter.Eventually.of_forall fun z => by simp only [div_eq_mul_inv, Pi.inv_apply])
    refine h4.congr_deriv ?_
    field_simp
  have h2 := ((hdiff.inv hq).const_mul (g.a0 : ℂ)).mul h1.cexp
  have h3 := h2.congr_of_eventuallyEq (f₁ := fun z : ℝ => g.gaussEnv xi r z)
      (Filter.Eventually.of_forall fun z => by
        unfold gaussEnv
        simp only [div_eq_mul_inv, Pi.mul_apply, Pi.inv_apply])
  refine h3.congr_deriv ?_
  unfold gaussEnv
  simp only [Pi.inv_apply]
  field_simp
  ring

theorem gouy_dz (p : ℕ) (xi z : ℝ) : HasDerivAt (fun z => (g.diffC xi z / g.diff xi z) ^ p)
    ((g.diffC xi z / g.diff xi z) ^ p * (-(2 * I * p / (g.zR * (g.diff xi z * g.diffC xi z))))) z := by
  have hq := g.diff_ne xi z
  have hqc := g.diffC_ne xi z
  have h := ((g.diffC_dz xi z).div (g.diff_dz xi z) hq).pow p
  refine h.congr_deriv ?_
  rcases p with _ | p
  · simp
  · rw [Nat.add_sub_cancel, pow_succ (g.diffC xi z / g.diff xi z) p]
    simp only [Pi.div_apply]
    have h2 : g.diff xi z + g.diffC xi z = 2 := by rw [diff_eq, diffC]; ring
    by_cases hz : (g.zR : ℂ) = 0
    · rw [hz]; simp
    generalize (g.diffC xi z / g.diff xi z) ^ p = P
    push_cast
    field_simp
    linear_combination (-P) * h2

/-- A solution of the paraxial wave equation `a_rr + a_r / r + 2 i k a_z = 0` for the wavelength `l0`. -/
def Paraxial (l0 : ℝ) (env : ℝ → ℝ → ℂ) : Prop :=
  ∃ ar arr az : ℝ → ℝ → ℂ, ∀ r z : ℝ,
    HasDerivAt (fun r => env r z) (ar r z) r ∧
    HasDerivAt (fun r => ar r z) (arr r z) r ∧
    HasDerivAt (fun z => env r z) (az r z) z ∧
    (r ≠ 0 → arr r z + ar r z / r + 2 * I * (2 * Real.pi / l0) * az r z = 0)

/-- Every Laguerre-Gauss pulse solves the paraxial wave equation. -/
theorem lg_paraxial {g : GaussPar} (h : g.Ok) (p : ℕ) (xi : ℝ) : Paraxial g.l0 fun r z => g.lgEnv p xi r z := by
  have hw := h.w0
  have hz := h.zR_pos
  have hl := h.l0
  have hwc : (g.w0 : ℂ) ≠ 0 := by exact_mod_cast hw.ne'
  have hzc : (g.zR : ℂ) ≠ 0 := by exact_mod_cast hz.ne'
  have hlc : (g.l0 : ℂ) ≠ 0 := by exact_mod_cast hl.ne'
  have hpc : (Real.pi : ℂ) ≠ 0 := by exact_mod_cast Real.pi_ne_zero
  have hzr : (g.zR : ℂ) = Real.pi * g.w0 ^ 2 / g.l0 := by unfold zR; push_cast; rfl
  simp only [lgEnv_eq]
  let G := fun r z => g.gaussEnv xi r z
  let P := fun z => (g.diffC xi z / g.diff xi z) ^ p
  let X := fun r z => g.lgX xi r z
  let N := fun z : ℝ => (1 + g.zeta xi z ^ 2 : ℝ)
  let g1 : ℝ → ℝ → ℂ := fun r z => -2 * r / (g.w0 ^ 2 * g.diff xi z)
  have hXr : ∀ r z, HasDerivAt (fun r => X r z) (4 * r / (g.w0 ^ 2 * N z)) r := by
    intro r z
    have := ((hasDerivAt_pow 2 r).const_mul 2).div_const (g.w0 ^ 2 * (1 + g.zeta xi z ^ 2))
    refine this.congr_deriv ?_
    simp only [N]
    push_cast
    ring
  have hXrr : ∀ r z, HasDerivAt (fun r => 4 * r / (g.w0 ^ 2 * N z)) (4 / (g.w0 ^ 2 * N z)) r := by
    intro r z
    have := ((hasDerivAt_id r).const_mul 4).div_const (g.w0 ^ 2 * N z)
    simpa using this
  have hXz : ∀ r z, HasDerivAt (fun z => X r z) (-(X r z * (2 * g.zeta xi z / (g.zR * N z)))) z := by
    intro r z
    have hN : (1 + g.zeta xi z ^ 2) ≠ 0 := by positivity
    have h1 := (((g.zeta_dz xi z).pow 2).const_add 1).const_mul (g.w0 ^ 2)
    have h2 := (h1.inv (mul_ne_zero (pow_ne_zero 2 hw.ne') hN)).const_mul (2 * r ^ 2)
    have h3 := h2.congr_of_eventuallyEq (f₁ := fun z => X r z) (Filter.Eventually.of_forall fun z => by
      simp only [X, lgX, div_eq_mul_inv, Pi.inv_apply, Pi.pow_apply])
    refine h3.congr_deriv ?_
    simp only [X, lgX, N, Pi.pow_apply]
    field_simp
    push_cast
    ring
  have hL : ∀ r z, HasDerivAt (fun r => ((laguerre p (X r z) : ℝ) : ℂ))
      ((lag1 p (X r z) * (4 * r / (g.w0 ^ 2 * N z)) : ℝ) : ℂ) r := by
    intro r z
    have : HasDerivAt (fun r => laguerre p (X r z)) (lag1 p (X r z) * (4 * r / (g.w0 ^ 2 * N z))) r :=
      HasDerivAt.comp (h₂ := laguerre p) (h := fun r => X r z) r (hasDerivAt_laguerre p (X r z)) (hXr r z)
    exact this.ofReal_comp
  have hL1 : ∀ r z, HasDerivAt (fun r => ((lag1 p (X r z) : ℝ) : ℂ))
      ((lag2 p (X r z) * (4 * r / (g.w0 ^ 2 * N z)) : ℝ) : ℂ) r := by
    intro r z
    have : HasDerivAt (fun r => lag1 p (X r z)) (lag2 p (X r z) * (4 * r / (g.w0 ^ 2 * N z))) r :=
      HasDerivAt.comp (h₂ := lag1 p) (h := fun r => X r z) r (hasDerivAt_lag1 p (X r z)) (hXr r z)
    exact this.ofReal_comp
  have hLz : ∀ r z, HasDerivAt (fun z => ((laguerre p (X r z) : ℝ) : ℂ))
      ((lag1 p (X r z) * (-(X r z * (2 * g.zeta xi z / (g.zR * N z)))) : ℝ) : ℂ) z := by
    intro r z
    have : HasDerivAt (fun z => laguerre p (X r z)) (lag1 p (X r z) * (-(X r z * (2 * g.zeta xi z / (g.zR * N z))))) z :=
      (hasDerivAt_laguerre p (X r z)).comp z (hXz r z)
    exact this.ofReal_comp
  have hg1 : ∀ r z, HasDerivAt (fun r => g1 r z) (-2 / (g.w0 ^ 2 * g.diff xi z)) r := by
    intro r z
    have hid : HasDerivAt (fun r : ℝ => (r : ℂ)) 1 r := Complex.ofRealCLM.hasDerivAt
    refine ((hid.const_mul (-2)).div_const (g.w0 ^ 2 * g.diff xi z)).congr_deriv ?_
    ring
  refine ⟨fun r z => G r z * P z * (g1 r z * (laguerre p (X r z) : ℝ) +
      (lag1 p (X r z) : ℝ) * ((4 * r / (g.w0 ^ 2 * N z) : ℝ) : ℂ)),
    fun r z => G r z * P z * ((g1 r z ^ 2 + -2 / (g.w0 ^ 2 * g.diff xi z)) * (laguerre p (X r z) : ℝ) +
      2 * g1 r z * ((lag1 p (X r z) : ℝ) * ((4 * r / (g.w0 ^ 2 * N z) : ℝ) : ℂ)) +
      (lag2 p (X r z) : ℝ) * ((4 * r / (g.w0 ^ 2 * N z) : ℝ) : ℂ) ^ 2 +
      (lag1 p (X r z) : ℝ) * ((4 / (g.w0 ^ 2 * N z) : ℝ) : ℂ)),
    fun r z => G r z * P z * ((I / g.zR * (r ^ 2 / (g.w0 ^ 2 * g.diff xi z ^ 2) - 1 / g.diff xi z) -
      2 * I * p / (g.zR * (g.diff xi z * g.diffC xi z))) * (laguerre p (X r z) : ℝ) -
      (lag1 p (X r z) : ℝ) * ((X r z * (2 * g.zeta xi z / (g.zR * N z)) : ℝ) : ℂ)), fun r z => ⟨?_, ?_, ?_, fun hr => ?_⟩⟩
  · refine (((gauss_dr xi r z).mul_const (P z)).mul (hL r z)).congr_deriv ?_
    simp only [G, g1]
    push_cast
    ring
  · have hlin : HasDerivAt (fun r => ((4 * r / (g.w0 ^ 2 * N z) : ℝ) : ℂ)) ((4 / (g.w0 ^ 2 * N z) : ℝ) : ℂ) r :=
      (hXrr r z).ofReal_comp
    have := ((gauss_dr (g := g) xi r z).mul_const (P z)).mul (((hg1 r z).mul (hL r z)).add ((hL1 r z).mul hlin))
    refine this.congr_deriv ?_
    simp only [G, Pi.add_apply, Pi.mul_apply]
    push_cast
    simp only [g1]
    ring
  · refine (((gauss_dz h xi r z).mul (g.gouy_dz p xi z)).mul (hLz r z)).congr_deriv ?_
    simp only [G, P, Pi.mul_apply]
    push_cast
    ring
  · have hrc : (r : ℂ) ≠ 0 := by exact_mod_cast hr
    have hq := g.diff_ne xi z
    have hqc := g.diffC_ne xi z
    have hNN : ((N z : ℝ) : ℂ) = g.diff xi z * g.diffC xi z := (g.diff_mul_diffC xi z).symm
    have hNN' : N z ≠ 0 := by simp only [N]; positivity
    have ode : ((X r z : ℝ) : ℂ) * (lag2 p (X r z) : ℝ) + (1 - ((X r z : ℝ) : ℂ)) * (lag1 p (X r z) : ℝ) +
        p * (laguerre p (X r z) : ℝ) = 0 := by exact_mod_cast laguerre_ode p (X r z)
    have hX : ((X r z : ℝ) : ℂ) = 2 * r ^ 2 / (g.w0 ^ 2 * (g.diff xi z * g.diffC xi z)) := by
      rw [← hNN]; simp only [X, lgX, N]; push_cast; rfl
    have hqz : I * (g.zeta xi z : ℂ) = g.diff xi z - 1 := by rw [diff_eq]; ring
    have hqc' : g.diffC xi z = 2 - g.diff xi z := by rw [diffC, hqz]; ring
    push_cast
    rw [hNN]
    simp only [g1]
    generalize ((laguerre p (X r z) : ℝ) : ℂ) = L0 at *
    generalize ((lag1 p (X r z) : ℝ) : ℂ) = L1 at *
    generalize ((lag2 p (X r z) : ℝ) : ℂ) = L2 at *
    rw [hX] at ode ⊢
    have hI : I * I = -1 := Complex.I_mul_I
    have hzeta : (g.zeta xi z : ℂ) = -I * (g.diff xi z - 1) := by
      rw [← hqz]; linear_combination ((g.zeta xi z : ℂ)) * hI
    rw [hzeta]
    rw [hqc'] at ode hqc ⊢
    generalize g.diff xi z = q at *
    generalize G r z * P z = A
    have e : ∀ B C D k : ℂ, 2 * I * k * (A * ((I / g.zR * B - 2 * I * p / (g.zR * (q * (2 - q)))) * L0 -
        L1 * (C * (2 * (-I * (q - 1)) / D)))) =
        -2 * k * A * ((B / g.zR - 2 * p / (g.zR * (q * (2 - q)))) * L0 + L1 * (C * (2 * (q - 1) / D))) := by
      intro B C D k
      linear_combination (2 * k * A * ((B / g.zR - 2 * p / (g.zR * (q * (2 - q)))) * L0 +
        L1 * (C * (2 * (q - 1) / D)))) * hI
    rw [e, hzr]
    field_simp at ode ⊢
    linear_combination (8 * A) * ode

theorem Paraxial.sum {l0 : ℝ} {env : ℕ → ℝ → ℝ → ℂ} (n : ℕ) (h : ∀ k < n, Paraxial l0 (env k)) :
    Paraxial l0 fun r z => ∑ k ∈ Finset.range n, env k r z := by
  induction n with
  | zero =>
    simp only [Finset.range_zero, Finset.sum_empty]
    exact ⟨fun _ _ => 0, fun _ _ => 0, fun _ _ => 0, fun r z =>
      ⟨hasDerivAt_const r (0 : ℂ), hasDerivAt_const r (0 : ℂ), hasDerivAt_const z (0 : ℂ), fun _ => by simp⟩⟩
  | succ n ih =>
    obtain ⟨ar, arr, az, h1⟩ := ih fun k hk => h k (by omega)
    obtain ⟨br, brr, bz, h2⟩ := h n (by omega)
    simp only [Finset.sum_range_succ]
    refine ⟨fun r z => ar r z + br r z, fun r z => arr r z + brr r z, fun r z => az r z + bz r z, fun r z => ?_⟩
    obtain ⟨a1, a2, a3, a4⟩ := h1 r z
    obtain ⟨b1, b2, b3, b4⟩ := h2 r z
    exact ⟨a1.add b1, a2.add b2, a3.add b3, fun hr => by linear_combination a4 hr + b4 hr⟩

theorem flatPar_ok {g : GaussPar} (h : g.Ok) (N : ℕ) (a cep : ℝ) :
    Ok { g with a0 := a, cep := cep, w0 := g.w0 * Real.sqrt (N + 1) } :=
  ⟨h.c, mul_pos h.w0 (Real.sqrt_pos.mpr (by positivity)), h.tau, h.l0⟩

/-- So does every flattened Gaussian pulse. -/
theorem flattened_paraxial {g : GaussPar} (h : g.Ok) (N : ℕ) (xi : ℝ) :
    ∃ s, g.flattened N = some s ∧ Paraxial g.l0 fun r z => s.env xi r z := by
  obtain ⟨s, hs, _, _, henv⟩ := flattened_env g N
  refine ⟨s, hs, ?_⟩
  simp only [henv]
  exact Paraxial.sum _ fun n _ => lg_paraxial (flatPar_ok h N _ _) n xi

/-! ### C111: power -/

theorem radial_moment {b : ℝ} (hb : 0 < b) (n : ℕ) :
    MeasureTheory.IntegrableOn (fun r : ℝ => r ^ (2 * n + 1) * Real.exp (-b * r ^ 2)) (Set.Ioi 0) ∧
      ∫ r in Set.Ioi (0 : ℝ), r ^ (2 * n + 1) * Real.exp (-b * r ^ 2) = n.factorial / (2 * b ^ (n + 1)) := by
  have e : ∀ r : ℝ, r ^ ((2 * n + 1 : ℕ) : ℝ) = r ^ (2 * n + 1) := fun r => Real.rpow_natCast r _
  have hs : (-1 : ℝ) < ((2 * n + 1 : ℕ) : ℝ) := lt_of_lt_of_le (by norm_num) (Nat.cast_nonneg _)
  constructor
  · have := integrableOn_rpow_mul_exp_neg_mul_sq hb hs
    simpa only [e] using this
  · have := integral_rpow_mul_exp_neg_mul_rpow (p := 2) two_pos hs hb
    simp only [e, Real.rpow_two] at this
    rw [this]
    have e1 : (((2 * n + 1 : ℕ) : ℝ) + 1) / 2 = (n : ℝ) + 1 := by push_cast; ring
    have e2 : -(((2 * n + 1 : ℕ) : ℝ) + 1) / 2 = -((n + 1 : ℕ) : ℝ) := by push_cast; ring
    rw [e1, e2, Real.Gamma_nat_eq_factorial, Real.rpow_neg hb.le, Real.rpow_natCast]
    field_simp

theorem laguerre_power {b : ℝ} (hb : 0 < b) (p : ℕ) :
    ∫ r in Set.Ioi (0 : ℝ), r * Real.exp (-b * r ^ 2) * laguerre p (b * r ^ 2) ^ 2 = 1 / (2 * b) := by
  have e : ∀ r : ℝ, r * Real.exp (-b * r ^ 2) * laguerre p (b * r ^ 2) ^ 2 =
      ∑ j ∈ Finset.range (p + 1), ∑ k ∈ Finset.range (p + 1),
        lagC p j * lagC p k * b ^ (j + k) * (r ^ (2 * (j + k) + 1) * Real.exp (-b * r ^ 2)) := by
    intro r
    rw [laguerre_eq, sq (∑ k ∈ _, _), Finset.sum_mul_sum, Finset.mul_sum]
    refine Finset.sum_congr rfl fun j _ => ?_
    rw [Finset.mul_sum]
    refine Finset.sum_congr rfl fun k _ => ?_
    rw [mul_pow, mul_pow]
    ring
  simp only [e]
  rw [MeasureTheory.integral_finset_sum]
  · have h1 : ∀ j ∈ Finset.range (p + 1), ∫ r in Set.Ioi (0 : ℝ), ∑ k ∈ Finset.range (p + 1),
        lagC p j * lagC p k * b ^ (j + k) * (r ^ (2 * (j + k) + 1) * Real.exp (-b * r ^ 2)) =
        ∑ k ∈ Finset.range (p + 1), lagC p j * lagC p k * ((j + k).factorial : ℝ) * (1 / (2 * b)) := by
      intro j _
      rw [MeasureTheory.integral_finset_sum]
      · refine Finset.sum_congr rfl fun k _ => ?_
        rw [MeasureTheory.integral_const_mul, (radial_moment hb _).2, pow_succ]
        field_simp
      · intro k _
        exact (radial_moment hb _).1.const_mul _
    rw [Finset.sum_congr rfl h1]
    simp only [← Finset.sum_mul]
    rw [lagC_norm, one_mul]
  · intro j _
    exact MeasureTheory.integrable_finset_sum _ fun k _ => (radial_moment hb _).1.const_mul _

/-- The power of a Laguerre-Gauss pulse in a transverse plane is that of the Gaussian pulse with
the same parameters: it depends neither on the order nor on the distance from the focus. -/
theorem lg_power {g : GaussPar} (h : g.Ok) (p : ℕ) (xi z : ℝ) :
    ∫ r in Set.Ioi (0 : ℝ), r * ‖g.lgEnv p xi r z‖ ^ 2 =
      g.a0 ^ 2 * g.w0 ^ 2 / 4 * Real.exp (-(xi - g.xiC) ^ 2 / sz g.c g.tau ^ 2) := by
  have hw := h.w0
  have hw' : 0 < g.width xi z := lt_of_lt_of_le hw (width_ge h xi z)
  obtain ⟨b, hb⟩ : ∃ b : ℝ, b = 2 / g.width xi z ^ 2 := ⟨_, rfl⟩
  have hbp : 0 < b := by rw [hb]; positivity
  obtain ⟨C, hC⟩ : ∃ C : ℝ, C = (|g.a0| * (g.w0 / g.width xi z) *
    Real.exp (-(xi - g.xiC) ^ 2 / (2 * sz g.c g.tau ^ 2))) ^ 2 := ⟨_, rfl⟩
  have hX : ∀ r, g.lgX xi r z = b * r ^ 2 := by
    intro r
    unfold lgX
    rw [hb]
    unfold width
    rw [mul_pow, Real.sq_sqrt (by positivity)]
    ring
  have hG : ‖(g.diffC xi z / g.diff xi z) ^ p‖ = 1 := by
    rw [norm_pow, norm_div]
    have : ‖g.diffC xi z‖ = ‖g.diff xi z‖ := by
      rw [diff_norm, Complex.norm_def, Complex.normSq_apply, diffC]
      congr 1
      simp
      ring
    rw [this, div_self (norm_ne_zero_iff.mpr (g.diff_ne xi z)), one_pow]
  have e : ∀ r : ℝ, r * ‖g.lgEnv p xi r z‖ ^ 2 = C * (r * Real.exp (-b * r ^ 2) * laguerre p (b * r ^ 2) ^ 2) := by
    intro r
    rw [lgEnv_eq, norm_mul, norm_mul, hG, gaussian_magnitude h, hX, Complex.norm_real, Real.norm_eq_abs, hC]
    have : Real.exp (-b * r ^ 2) = Real.exp (-(r / g.width xi z) ^ 2) ^ 2 := by
      rw [← Real.exp_nat_mul, hb]
      congr 1
      push_cast
      field_simp
    rw [this, mul_one, mul_pow _ |laguerre p (b * r ^ 2)|, sq_abs]
    ring
  simp only [e]
  rw [MeasureTheory.integral_const_mul, laguerre_power hbp, hC, hb]
  have e3 : Real.exp (-(xi - g.xiC) ^ 2 / sz g.c g.tau ^ 2) =
      Real.exp (-(xi - g.xiC) ^ 2 / (2 * sz g.c g.tau ^ 2)) ^ 2 := by
    rw [← Real.exp_nat_mul]
    congr 1
    push_cast
    rw [← div_div]
    ring
  rw [e3, mul_pow, mul_pow, sq_abs]
  field_simp
  ring

/-! ### C112: far field of the flattened Gaussian -/

theorem flat_far (N : ℕ) (y : ℝ) : ∑ n ∈ Finset.range (N + 1), flatCoeff N n * laguerre n (2 * y) =
    (∑ m ∈ Finset.range (N + 1), y ^ m / m.factorial) / (N + 1) := by
  have h1 : ∀ n ∈ Finset.range (N + 1), flatCoeff N n * laguerre n (2 * y) =
      (∑ m ∈ Finset.Ico n (N + 1), (0.5 : ℝ) ^ m * ((-1) ^ n * (m.choose n : ℝ) * laguerre n (2 * y))) / (N + 1) := by
    intro n _
    unfold flatCoeff
    rw [mul_div_assoc, mul_assoc, Finset.sum_div, Finset.sum_div, Finset.sum_mul, Finset.mul_sum]
    refine Finset.sum_congr rfl fun m _ => by ring
  rw [Finset.sum_congr rfl h1, ← Finset.sum_div]
  congr 1
  have h2 : ∑ n ∈ Finset.range (N + 1), ∑ m ∈ Finset.Ico n (N + 1),
      (0.5 : ℝ) ^ m * ((-1) ^ n * (m.choose n : ℝ) * laguerre n (2 * y)) =
      ∑ m ∈ Finset.range (N + 1), ∑ n ∈ Finset.range (m + 1),
        (0.5 : ℝ) ^ m * ((-1) ^ n * (m.choose n : ℝ) * laguerre n (2 * y)) := by
    apply Finset.sum_comm'
    intro n m
    simp only [Finset.mem_range, Finset.mem_Ico]
    omega
  rw [h2]
  refine Finset.sum_congr rfl fun m _ => ?_
  rw [← Finset.mul_sum, laguerre_inversion, mul_pow]
  have : (0.5 : ℝ) ^ m * 2 ^ m = 1 := by rw [← mul_pow]; norm_num
  rw [mul_div_assoc', ← mul_assoc, this, one_mul]

/-- Far from the focus the flattened Gaussian of order `N` has at the angle `θ` to the axis the
amplitude `exp(-ρ) (1 + ρ + ... + ρ^N / N!)`, where `ρ = (N + 1) (π w0 θ / λ)²`: a profile that is
flat up to the divergence angle `λ / (π w0)` of the Gaussian pulse, whatever the order. On axis it
has the amplitude of the Gaussian pulse. -/
theorem flattened_far {g : GaussPar} (h : g.Ok) (N : ℕ) (θ : ℝ) : ∃ s, g.flattened N = some s ∧
    let ρ := (N + 1) * (Real.pi * g.w0 * θ / g.l0) ^ 2
    Filter.Tendsto (fun d : ℝ => d * ‖s.env g.xiC (θ * d) (g.zFoc + d)‖) Filter.atTop
      (nhds (|g.a0| * (Real.pi * g.w0 ^ 2 / g.l0) * (Real.exp (-ρ) * ∑ m ∈ Finset.range (N + 1), ρ ^ m / m.factorial))) := by
  obtain ⟨s, hs, _, _, henv⟩ := flattened_env g N
  refine ⟨s, hs, ?_⟩
  intro ρ
  have hl := h.l0
  have hw := h.w0
  have hn1 : (0 : ℝ) < N + 1 := by positivity
  have hsq : Real.sqrt ((N : ℝ) + 1) ^ 2 = N + 1 := Real.sq_sqrt hn1.le
  -- the common parameters of the modes
  let g0 : GaussPar := { g with w0 := g.w0 * Real.sqrt (N + 1) }
  have hg0 : g0.Ok := flatPar_ok h N _ _
  have hZ : 0 < g0.zR := hg0.zR_pos
  have hZe : g0.zR = (N + 1) * (Real.pi * g.w0 ^ 2 / g.l0) := by
    simp only [g0, zR]
    rw [mul_pow, hsq]
    ring
  let v : ℝ → ℝ := fun d => (1 + (d / g0.zR) ^ 2)⁻¹
  let F : ℝ → ℝ := fun v => |g.a0| * (g0.zR * Real.sqrt (1 - v)) * Real.exp (-(ρ * (1 - v))) *
    ‖∑ n ∈ Finset.range (N + 1), (((flatCoeff N n : ℝ) : ℂ) * (-1) ^ n *
      ((2 * v - 1 : ℝ) - 2 * I * (Real.sqrt (v * (1 - v)) : ℝ)) ^ n * (laguerre n (2 * (ρ * (1 - v))) : ℝ) : ℂ)‖
  have hv : Filter.Tendsto v Filter.atTop (nhds 0) := by
    apply Filter.Tendsto.inv_tendsto_atTop
    apply Filter.tendsto_atTop_add_const_left
    exact (Filter.tendsto_pow_atTop (by norm_num)).comp (Filter.tendsto_id.atTop_div_const hZ)
  have hlag : ∀ n, Continuous (laguerre n) := fun n =>
    continuous_iff_continuousAt.mpr fun x => (hasDerivAt_laguerre n x).continuousAt
  have hF : Continuous F := by
    refine (((continuous_const.mul (continuous_const.mul (Real.continuous_sqrt.comp (by fun_prop)))).mul (by fun_prop)).mul
      (continuous_norm.comp ?_))
    refine continuous_finset_sum _ fun n _ => ?_
    refine (continuous_const.mul (Continuous.pow ?_ n)).mul (Complex.continuous_ofReal.comp ((hlag n).comp (by fun_prop)))
    exact (Complex.continuous_ofReal.comp (by fun_prop)).sub
      (continuous_const.mul (Complex.continuous_ofReal.comp (Real.continuous_sqrt.comp (by fun_prop))))
  have hF0 : F 0 = |g.a0| * (Real.pi * g.w0 ^ 2 / g.l0) *
      (Real.exp (-ρ) * ∑ m ∈ Finset.range (N + 1), ρ ^ m / m.factorial) := by
    simp only [F, sub_zero, mul_one, Real.sqrt_one, mul_zero, zero_mul, Real.sqrt_zero]
    have e : ∑ n ∈ Finset.range (N + 1), (((flatCoeff N n : ℝ) : ℂ) * (-1) ^ n *
        ((0 - 1 : ℝ) - 2 * I * ((0 : ℝ) : ℂ)) ^ n * (laguerre n (2 * ρ) : ℝ) : ℂ) =
        (((∑ m ∈ Finset.range (N + 1), ρ ^ m / m.factorial) / (N + 1) : ℝ) : ℂ) := by
      rw [← flat_far, Complex.ofReal_sum]
      refine Finset.sum_congr rfl fun n _ => ?_
      push_cast
      have : (-1 : ℂ) ^ n * (0 - 1 - 2 * I * 0) ^ n = 1 := by rw [← mul_pow]; norm_num
      linear_combination (((flatCoeff N n : ℝ) : ℂ) * (laguerre n (2 * ρ) : ℝ)) * this
    have hρ : 0 ≤ ρ := by simp only [ρ]; positivity
    have hp : 0 ≤ (∑ m ∈ Finset.range (N + 1), ρ ^ m / m.factorial) / ((N : ℝ) + 1) :=
      div_nonneg (Finset.sum_nonneg fun m _ => by positivity) hn1.le
    rw [e, Complex.norm_real, Real.norm_eq_abs, abs_of_nonneg hp, hZe]
    field_simp
  rw [← hF0]
  refine ((hF.tendsto 0).comp hv).congr' ?_
  filter_upwards [Filter.eventually_ge_atTop (0 : ℝ)] with d hd
  simp only [Function.comp_apply]
  have hzeta : g0.zeta g.xiC (g.zFoc + d) = d / g0.zR := by
    simp only [zeta, g0]
    congr 1
    ring
  obtain ⟨t, ht⟩ : ∃ t, t = d / g0.zR := ⟨_, rfl⟩
  have ht0 : 0 ≤ t := by rw [ht]; positivity
  have hvt : v d = (1 + t ^ 2)⁻¹ := by rw [ht]
  have hden : (1 + t ^ 2) ≠ 0 := by positivity
  have h1v : 1 - v d = t ^ 2 * (1 + t ^ 2)⁻¹ := by rw [hvt]; field_simp; ring
  have hdt : d = g0.zR * t := by rw [ht]; field_simp
  -- the sum of the modes
  have hsum : s.env g.xiC (θ * d) (g.zFoc + d) = g0.gaussEnv g.xiC (θ * d) (g.zFoc + d) *
      ∑ n ∈ Finset.range (N + 1), (((flatCoeff N n : ℝ) : ℂ) * (-1) ^ n *
        (g0.diffC g.xiC (g.zFoc + d) / g0.diff g.xiC (g.zFoc + d)) ^ n *
          (laguerre n (g0.lgX g.xiC (θ * d) (g.zFoc + d)) : ℝ) : ℂ) := by
    rw [henv, Finset.mul_sum]
    refine Finset.sum_congr rfl fun n _ => ?_
    let gn : GaussPar := { g0 with a0 := flatCoeff N n * g.a0, cep := g.cep + 2 * n * Real.pi / 2 }
    show gn.lgEnv n _ _ _ = _
    rw [lgEnv_eq]
    have hpi : Complex.exp (-(I * (n * Real.pi))) = (-1) ^ n := by
      have e1 : -(I * (n * (Real.pi : ℂ))) = (n : ℂ) * (-(Real.pi * I)) := by ring
      rw [e1, Complex.exp_nat_mul, Complex.exp_neg, Complex.exp_pi_mul_I]
      norm_num
    have e : ∀ xi r z, gn.gaussEnv xi r z = g0.gaussEnv xi r z * ((flatCoeff N n : ℝ) : ℂ) * (-1) ^ n := by
      intro xi r z
      have hd : gn.diff xi z = g0.diff xi z := rfl
      unfold gaussEnv
      rw [hd, ← hpi]
      simp only [gn, g0]
      rw [show -I * ((g.cep + 2 * n * Real.pi / 2 : ℝ) : ℂ) = -I * g.cep + -(I * (n * Real.pi)) by push_cast; ring]
      rw [show ∀ a b c d : ℂ, a + b + c + d = (a + c + d) + b from fun a b c d => by ring, Complex.exp_add]
      push_cast
      ring
    rw [e]
    have h1 : gn.diff = g0.diff := rfl
    have h2 : gn.diffC = g0.diffC := rfl
    have h3 : gn.lgX = g0.lgX := rfl
    rw [h1, h2, h3]
    ring
  have hX : g0.lgX g.xiC (θ * d) (g.zFoc + d) = 2 * (ρ * (1 - v d)) := by
    unfold lgX
    rw [hzeta, ← ht, h1v, hdt]
    have hw0 : g0.w0 ^ 2 = g.w0 ^ 2 * (N + 1) := by simp only [g0]; rw [mul_pow, hsq]
    rw [hw0, hZe]
    simp only [ρ]
    field_simp
  have hq : g0.diffC g.xiC (g.zFoc + d) / g0.diff g.xiC (g.zFoc + d) =
      ((2 * v d - 1 : ℝ) - 2 * I * (Real.sqrt (v d * (1 - v d)) : ℝ) : ℂ) := by
    have hs1 : Real.sqrt (v d * (1 - v d)) = t * (1 + t ^ 2)⁻¹ := by
      rw [h1v, hvt, show (1 + t ^ 2)⁻¹ * (t ^ 2 * (1 + t ^ 2)⁻¹) = (t * (1 + t ^ 2)⁻¹) ^ 2 by ring]
      exact Real.sqrt_sq (by positivity)
    rw [div_eq_iff (g0.diff_ne _ _), hs1, hvt, diff_eq, diffC, hzeta, ← ht]
    have hden' : (1 + (t : ℂ) ^ 2) ≠ 0 := by exact_mod_cast hden
    push_cast
    field_simp
    linear_combination (2 * (t : ℂ) ^ 2) * Complex.I_sq
  have hmag : ‖g0.gaussEnv g.xiC (θ * d) (g.zFoc + d)‖ = |g.a0| * (Real.sqrt (1 + t ^ 2))⁻¹ *
      Real.exp (-(ρ * (1 - v d))) := by
    rw [gaussian_magnitude hg0]
    have e1 : Real.exp (-(g.xiC - g0.xiC) ^ 2 / (2 * sz g0.c g0.tau ^ 2)) = 1 := by simp [g0]
    have e2 : g0.width g.xiC (g.zFoc + d) = g0.w0 * Real.sqrt (1 + t ^ 2) := by unfold width; rw [hzeta, ht]
    have e3 : (θ * d / (g0.w0 * Real.sqrt (1 + t ^ 2))) ^ 2 = ρ * (1 - v d) := by
      have := hX
      unfold lgX at this
      rw [hzeta, ← ht] at this
      rw [div_pow, mul_pow g0.w0, Real.sq_sqrt (by positivity)]
      linear_combination this / 2
    have hw0 := hg0.w0
    have hs : 0 < Real.sqrt (1 + t ^ 2) := Real.sqrt_pos.mpr (by positivity)
    rw [e1, e2, e3, mul_one]
    field_simp
    rfl
  rw [hsum, norm_mul, hmag, hX, hq]
  simp only [F]
  have hs : Real.sqrt (1 - v d) = t * (Real.sqrt (1 + t ^ 2))⁻¹ := by
    rw [h1v, Real.sqrt_mul (by positivity), Real.sqrt_sq ht0, Real.sqrt_inv]
  rw [hs, hdt]
  have : v (g0.zR * t) = v d := by rw [← hdt]
  rw [this]
  ring

/-- A pulse out of focus at the start, with a phase. -/
example : ∃ g : GaussPar, g.Ok ∧ g.a0 ≠ 0 ∧ g.cep ≠ 0 ∧ g.zFoc ≠ 0 :=
  ⟨⟨3e8, 0, 2, 2e-5, 3e-14, 1e-3, 8e-7, 0.5, .circular⟩, ⟨by norm_num, by norm_num, by norm_num, by norm_num⟩,
    by norm_num, by norm_num, by norm_num⟩

end GaussPar

end WakeT.Laser
