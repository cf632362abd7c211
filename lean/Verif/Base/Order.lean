import Verif.Base.Tactics
import Mathlib.Analysis.Calculus.MeanValue
import Mathlib.Analysis.Calculus.Deriv.Pow
import Mathlib.Analysis.SpecialFunctions.Exp
import Mathlib.Analysis.Normed.Operator.BoundedLinearMaps
import Mathlib.Tactic.Module
import Mathlib.Analysis.Calculus.IteratedDeriv.Defs
import Mathlib.Analysis.Calculus.ContDiff.Operations

/-! # Order of one-step methods

Facts on numerical methods for `y' = f(t, y)` in a normed space, which do not refer to the code: the classical Runge-Kutta method has order four, and a
method that satisfies the midpoint rule up to third order has order two. -/

set_option linter.unusedSectionVars false

namespace WakeT.Order

open Set Finset Nat

variable {E F : Type*} [NormedAddCommGroup E] [NormedSpace ℝ E] [NormedAddCommGroup F] [NormedSpace ℝ F]

/-! ### Taylor polynomials -/

theorem taylor_deriv (n : ℕ) (a : ℕ → E) (s : ℝ) (S : Set ℝ) :
    HasDerivWithinAt (fun s : ℝ => ∑ k ∈ range (n + 2), (s ^ k / k !) • a k) (∑ k ∈ range (n + 1), (s ^ k / k !) • a (k + 1)) S s := by
  have h : ∀ k ∈ range (n + 1), HasDerivWithinAt (fun s : ℝ => (s ^ (k + 1) / (k + 1) !) • a (k + 1)) ((s ^ k / k !) • a (k + 1)) S s := by
    intro k _
    have h1 : HasDerivAt (fun s : ℝ => s ^ (k + 1) / (k + 1) !) (s ^ k / k !) s := by
      have h2 := (hasDerivAt_pow (k + 1) s).div_const (((k + 1) ! : ℕ) : ℝ)
      refine h2.congr_deriv ?_
      rw [Nat.factorial_succ]
      push_cast
      have : ((k : ℝ) + 1) ≠ 0 := by positivity
      have : ((k ! : ℕ) : ℝ) ≠ 0 := by positivity
      field_simp
    exact (h1.smul_const (a (k + 1))).hasDerivWithinAt
  have h3 := (HasDerivWithinAt.fun_sum h).add_const ((s ^ 0 / 0 !) • a 0)
  refine (h3.congr_deriv rfl).congr (fun x _ => ?_) ?_
  · rw [sum_range_succ' _ (n + 1), pow_zero, pow_zero]
  · rw [sum_range_succ' _ (n + 1)]

/-- The Taylor polynomial of degree `n`, with a Lipschitz `n`-th derivative. -/
theorem taylor {n : ℕ} {g : ℕ → ℝ → E} {T N : ℝ}
    (hg : ∀ k < n, ∀ t ∈ Icc 0 T, HasDerivWithinAt (g k) (g (k + 1) t) (Icc 0 T) t)
    (hN : ∀ s ∈ Icc 0 T, ∀ t ∈ Icc 0 T, ‖g n t - g n s‖ ≤ N * |t - s|) {t h : ℝ} (ht : 0 ≤ t) (hh : 0 ≤ h) (hT : t + h ≤ T) :
    ‖g 0 (t + h) - ∑ k ∈ range (n + 1), (h ^ k / k !) • g k t‖ ≤ N * h ^ (n + 1) := by
  induction n generalizing g h with
  | zero =>
    have h1 := hN t ⟨ht, by linarith⟩ (t + h) ⟨by linarith, hT⟩
    simpa [abs_of_nonneg hh] using h1
  | succ n ih =>
    have hN0 : 0 ≤ N ∨ h = 0 := by
      rcases hh.eq_or_lt with h0 | h0
      · exact .inr h0.symm
      · left
        have h1 := (norm_nonneg _).trans (hN t ⟨ht, by linarith⟩ (t + h) ⟨by linarith, hT⟩)
        rw [add_sub_cancel_left, abs_of_pos h0] at h1
        by_contra hn
        push Not at hn
        nlinarith
    rcases hN0 with hN0 | rfl
    swap
    · rw [sum_range_succ']
      simp
    have key : ∀ s ∈ Icc 0 h, HasDerivWithinAt (fun s => g 0 (t + s) - ∑ k ∈ range (n + 2), (s ^ k / k !) • g k t)
        (g 1 (t + s) - ∑ k ∈ range (n + 1), (s ^ k / k !) • g (k + 1) t) (Icc 0 h) s := by
      intro s hs
      refine HasDerivWithinAt.sub ?_ (taylor_deriv n (fun k => g k t) s _)
      have h1 := hg 0 (by omega) (t + s) ⟨by linarith [hs.1], by linarith [hs.2]⟩
      have h2 : HasDerivWithinAt (fun s : ℝ => t + s) 1 (Icc 0 h) s := (hasDerivWithinAt_id s _).const_add t
      have h3 := HasDerivWithinAt.scomp s h1 h2 (fun x hx => ⟨by linarith [hx.1], by linarith [hx.2]⟩)
      rw [one_smul] at h3
      exact h3
    have bound : ∀ s ∈ Ico 0 h, ‖g 1 (t + s) - ∑ k ∈ range (n + 1), (s ^ k / k !) • g (k + 1) t‖ ≤ N * h ^ (n + 1) := by
      intro s hs
      refine (ih (g := fun k => g (k + 1)) (fun k hk => hg (k + 1) (by omega)) hN hs.1 (by linarith [hs.2])).trans ?_
      exact mul_le_mul_of_nonneg_left (pow_le_pow_left₀ hs.1 hs.2.le _) hN0
    have h4 := norm_image_sub_le_of_norm_deriv_le_segment' key bound h ⟨hh, le_rfl⟩
    have h5 : ∑ k ∈ range (n + 2), ((0 : ℝ) ^ k / k !) • g k t = g 0 t := by
      rw [sum_range_succ']
      simp
    rw [h5, add_zero, sub_self, sub_zero, sub_zero] at h4
    refine h4.trans (le_of_eq ?_)
    ring

/-! ### Terms of a given order, uniformly in time -/

/-- `v` is of order `h^n` for all steps `h` from times `t` up to `T`. -/
def Ord (T : ℝ) (n : ℕ) (v : ℝ → ℝ → E) : Prop := ∃ C, 0 ≤ C ∧ ∀ t h, 0 ≤ t → 0 ≤ h → t + h ≤ T → ‖v t h‖ ≤ C * h ^ n

variable {T : ℝ} {n m : ℕ} {u v : ℝ → ℝ → E}

theorem Ord.of_le {C : ℝ} (h : ∀ t h, 0 ≤ t → 0 ≤ h → t + h ≤ T → ‖v t h‖ ≤ C * h ^ n) : Ord T n v :=
  ⟨|C|, abs_nonneg C, fun t s ht hs hT => (h t s ht hs hT).trans (mul_le_mul_of_nonneg_right (le_abs_self C) (by positivity))⟩

theorem Ord.add (hu : Ord T n u) (hv : Ord T n v) : Ord T n fun t h => u t h + v t h := by
  obtain ⟨C, hC, h1⟩ := hu
  obtain ⟨D, hD, h2⟩ := hv
  refine ⟨C + D, by positivity, fun t h ht hh hT => (norm_add_le _ _).trans ?_⟩
  rw [add_mul]
  exact add_le_add (h1 t h ht hh hT) (h2 t h ht hh hT)

theorem Ord.smul (hv : Ord T n v) (c : ℝ) (m : ℕ) : Ord T (n + m) fun t h => (c * h ^ m) • v t h := by
  obtain ⟨C, hC, h1⟩ := hv
  refine ⟨|c| * C, by positivity, fun t h ht hh hT => ?_⟩
  rw [norm_smul, Real.norm_eq_abs, abs_mul, abs_of_nonneg (pow_nonneg hh m)]
  calc _ ≤ |c| * h ^ m * (C * h ^ n) := mul_le_mul_of_nonneg_left (h1 t h ht hh hT) (by positivity)
    _ = _ := by ring

theorem Ord.mono (hv : Ord T n v) (hm : m ≤ n) : Ord T m v := by
  obtain ⟨C, hC, h1⟩ := hv
  obtain ⟨k, rfl⟩ := Nat.exists_eq_add_of_le hm
  refine ⟨C * |T| ^ k, by positivity, fun t h ht hh hT => (h1 t h ht hh hT).trans ?_⟩
  have h2 : h ^ k ≤ |T| ^ k := pow_le_pow_left₀ hh (by linarith [le_abs_self T]) k
  calc C * h ^ (m + k) = C * h ^ m * h ^ k := by ring
    _ ≤ C * h ^ m * |T| ^ k := mul_le_mul_of_nonneg_left h2 (by positivity)
    _ = _ := by ring

theorem Ord.congr (hv : Ord T n v) (h : ∀ t h, u t h = v t h) : Ord T n u := by
  have : u = v := funext fun t => funext fun s => h t s
  rwa [this]

theorem Ord.map {J : ℝ → ℝ → E →L[ℝ] F} (hJ : Ord T m J) (hv : Ord T n v) : Ord T (m + n) fun t h => J t h (v t h) := by
  obtain ⟨D, hD, h2⟩ := hJ
  obtain ⟨C, hC, h1⟩ := hv
  refine ⟨D * C, by positivity, fun t h ht hh hT => ((J t h).le_opNorm _).trans ?_⟩
  calc _ ≤ D * h ^ m * (C * h ^ n) := mul_le_mul (h2 t h ht hh hT) (h1 t h ht hh hT) (norm_nonneg _) (by positivity)
    _ = _ := by ring

theorem Ord.sq {Q : ℝ} (hu : Ord T n u)
    (h : ∀ t h, 0 ≤ t → 0 ≤ h → t + h ≤ T → ‖v t h‖ ≤ Q * ‖u t h‖ ^ 2) : Ord T (2 * n) v := by
  obtain ⟨C, hC, h1⟩ := hu
  refine ⟨|Q| * C ^ 2, by positivity, fun t s ht hs hT => (h t s ht hs hT).trans ?_⟩
  have h2 : ‖u t s‖ ^ 2 ≤ (C * s ^ n) ^ 2 := pow_le_pow_left₀ (norm_nonneg _) (h1 t s ht hs hT) 2
  calc _ ≤ |Q| * ‖u t s‖ ^ 2 := mul_le_mul_of_nonneg_right (le_abs_self Q) (by positivity)
    _ ≤ |Q| * (C * s ^ n) ^ 2 := mul_le_mul_of_nonneg_left h2 (abs_nonneg Q)
    _ = _ := by ring

/-! ### The exact solution -/

/-- `g k` is the `k`-th derivative of a curve on `[0, T]`, and the `n`-th one is Lipschitz. -/
structure Curve (T : ℝ) (n : ℕ) (g : ℕ → ℝ → E) : Prop where
  T0 : 0 ≤ T
  deriv : ∀ k < n, ∀ t ∈ Icc 0 T, HasDerivWithinAt (g k) (g (k + 1) t) (Icc 0 T) t
  lip : ∃ N, ∀ s ∈ Icc 0 T, ∀ t ∈ Icc 0 T, ‖g n t - g n s‖ ≤ N * |t - s|

variable {g : ℕ → ℝ → E}

theorem Curve.tail (h : Curve T (n + 1) g) : Curve T n fun k => g (k + 1) :=
  ⟨h.T0, fun k hk => h.deriv (k + 1) (by omega), h.lip⟩

theorem bounded_of_lip {f : ℝ → E} {N : ℝ} (hT : 0 ≤ T) (h : ∀ s ∈ Icc 0 T, ∀ t ∈ Icc 0 T, ‖f t - f s‖ ≤ N * |t - s|) :
    ∃ C, 0 ≤ C ∧ ∀ t ∈ Icc 0 T, ‖f t‖ ≤ C := by
  refine ⟨‖f 0‖ + |N| * T, by positivity, fun t ht => ?_⟩
  have h1 := h 0 ⟨le_rfl, hT⟩ t ht
  rw [sub_zero, abs_of_nonneg ht.1] at h1
  have h2 : N * t ≤ |N| * T := mul_le_mul (le_abs_self N) ht.2 ht.1 (abs_nonneg N)
  have h3 := norm_sub_norm_le (f t) (f 0)
  linarith

theorem lip_of_deriv {f f' : ℝ → E} {C : ℝ} (hf : ∀ t ∈ Icc 0 T, HasDerivWithinAt f (f' t) (Icc 0 T) t)
    (hC : ∀ t ∈ Icc 0 T, ‖f' t‖ ≤ C) : ∀ s ∈ Icc 0 T, ∀ t ∈ Icc 0 T, ‖f t - f s‖ ≤ C * |t - s| := fun s hs t ht =>
  Convex.norm_image_sub_le_of_norm_hasDerivWithin_le hf hC (convex_Icc 0 T) hs ht

theorem Curve.pred (h : Curve T (n + 1) g) : Curve T n g := by
  obtain ⟨N, hN⟩ := h.lip
  obtain ⟨C, -, hC⟩ := bounded_of_lip h.T0 hN
  exact ⟨h.T0, fun k hk => h.deriv k (by omega), C, lip_of_deriv (h.deriv n (by omega)) hC⟩

theorem Curve.le (h : Curve T n g) (hm : m ≤ n) : Curve T m g := by
  induction n with
  | zero =>
    obtain rfl : m = 0 := by omega
    exact h
  | succ n ih =>
    rcases Nat.lt_or_ge n m with h1 | h1
    · obtain rfl : m = n + 1 := by omega
      exact h
    · exact ih h.pred h1

/-- The derivatives are bounded. -/
theorem Curve.ord (h : Curve T n g) {k : ℕ} (hk : k ≤ n) : Ord T 0 fun t _ => g k t := by
  obtain ⟨N, hN⟩ := (h.le hk).lip
  obtain ⟨C, -, hC⟩ := bounded_of_lip h.T0 hN
  exact .of_le (C := C) fun t s ht hs hT => by
    rw [pow_zero, mul_one]
    exact hC t ⟨ht, by linarith⟩

/-- Taylor polynomials at a fraction of the step. -/
theorem Curve.taylor (h : Curve T n g) {a : ℝ} (ha : 0 ≤ a) (ha1 : a ≤ 1) :
    Ord T (n + 1) fun t h => g 0 (t + a * h) - ∑ k ∈ range (n + 1), ((a * h) ^ k / k !) • g k t := by
  obtain ⟨N, hN⟩ := h.lip
  refine .of_le (C := |N|) fun t s ht hs hT => ?_
  have h1 : a * s ≤ s := by nlinarith
  have h2 : 0 ≤ a * s := by positivity
  refine (WakeT.Order.taylor h.deriv hN ht h2 (by linarith)).trans ?_
  calc N * (a * s) ^ (n + 1) ≤ |N| * (a * s) ^ (n + 1) := mul_le_mul_of_nonneg_right (le_abs_self N) (by positivity)
    _ ≤ |N| * s ^ (n + 1) := mul_le_mul_of_nonneg_left (pow_le_pow_left₀ h2 h1 _) (abs_nonneg N)

/-! ### The classical Runge-Kutta method -/

/-- One step of the classical Runge-Kutta method. -/
noncomputable def rk4 (f : ℝ → E → E) (t h : ℝ) (p : E) : E :=
  let k1 := f t p
  let k2 := f (t + h / 2) (p + (h / 2) • k1)
  let k3 := f (t + h / 2) (p + (h / 2) • k2)
  let k4 := f (t + h) (p + h • k3)
  p + (h / 6) • k1 + (h / 3) • k2 + (h / 3) • k3 + (h / 6) • k4

/-- The points `Ω t` that can be reached up to the time `t`. -/
structure Reach (f : ℝ → E → E) (T : ℝ) (Ω : ℝ → Set E) : Prop where
  mono : ∀ s t, s ≤ t → Ω s ⊆ Ω t
  move : ∀ t h s p q, 0 ≤ t → 0 ≤ h → p ∈ Ω t → p + h • f s q ∈ Ω (t + h)

set_option maxHeartbeats 1000000 in
/-- The error of one step is of order five. -/
theorem rk4_local {f : ℝ → E → E} {Ω : ℝ → Set E} {J : ℝ → E →L[ℝ] E} {Q : ℝ} (hΩ : Reach f T Ω) (hg : Curve T 4 g)
    (hy : ∀ t ∈ Icc 0 T, g 1 t = f t (g 0 t)) (hin : ∀ t ∈ Icc 0 T, g 0 t ∈ Ω t) (hJ : Curve T 0 fun _ => J)
    (hQ : ∀ t ∈ Icc 0 T, ∀ p ∈ Ω T, ‖f t p - g 1 t - J t (p - g 0 t)‖ ≤ Q * ‖p - g 0 t‖ ^ 2) :
    Ord T 5 fun t h => rk4 f t h (g 0 t) - g 0 (t + h) := by
  -- Taylor polynomials
  have rm := hg.taylor (a := 1 / 2) (by norm_num) (by norm_num)
  have r1 := hg.taylor (a := 1) (by norm_num) (by norm_num)
  have sm := hg.tail.taylor (a := 1 / 2) (by norm_num) (by norm_num)
  have s1 := hg.tail.taylor (a := 1) (by norm_num) (by norm_num)
  have a2 := hg.ord (k := 2) (by norm_num)
  have a3 := hg.ord (k := 3) (by norm_num)
  have a4 := hg.ord (k := 4) (by norm_num)
  simp only [sum_range_succ, sum_range_zero, Nat.factorial, zero_add, one_mul, pow_zero, pow_one, Nat.cast_one, div_one, one_smul, Nat.cast_mul,
    Nat.cast_add, Nat.cast_ofNat] at rm r1 sm s1
  norm_num at rm r1 sm s1
  simp only [show ∀ h : ℝ, 1 / 2 * h = h / 2 from fun h => by ring] at rm sm
  -- the Jacobian
  obtain ⟨K, hK⟩ := hJ.lip
  have Jm : Ord T 0 fun t h => J (t + h / 2) := by
    obtain ⟨C, -, hC⟩ := bounded_of_lip hg.T0 hK
    exact .of_le (C := C) fun t s ht hs hT => by
      rw [pow_zero, mul_one]
      exact hC _ ⟨by linarith, by linarith⟩
  have J1 : Ord T 1 fun t h => J (t + h) - J (t + h / 2) := by
    refine .of_le (C := |K|) fun t s ht hs hT => (hK (t + s / 2) ⟨by linarith, by linarith⟩ (t + s) ⟨by linarith, by linarith⟩).trans ?_
    rw [show t + s - (t + s / 2) = s / 2 by ring, abs_of_nonneg (by positivity)]
    have := le_abs_self K
    have := abs_nonneg K
    nlinarith
  -- the stages
  obtain ⟨k2, hk2⟩ : ∃ k : ℝ → ℝ → E, ∀ t h, k t h = f (t + h / 2) (g 0 t + (h / 2) • g 1 t) := ⟨_, fun _ _ => rfl⟩
  obtain ⟨k3, hk3⟩ : ∃ k : ℝ → ℝ → E, ∀ t h, k t h = f (t + h / 2) (g 0 t + (h / 2) • k2 t h) := ⟨_, fun _ _ => rfl⟩
  obtain ⟨k4, hk4⟩ : ∃ k : ℝ → ℝ → E, ∀ t h, k t h = f (t + h) (g 0 t + h • k3 t h) := ⟨_, fun _ _ => rfl⟩
  have hrk : ∀ t h, 0 ≤ t → 0 ≤ h → t + h ≤ T →
      rk4 f t h (g 0 t) = g 0 t + (h / 6) • g 1 t + (h / 3) • k2 t h + (h / 3) • k3 t h + (h / 6) • k4 t h := by
    intro t h ht hh hT
    rw [hk4, hk3, hk2, hy t ⟨ht, by linarith⟩]
    rfl
  have reach : ∀ t h s q a, 0 ≤ t → 0 ≤ h → t + h ≤ T → 0 ≤ a → a ≤ h → g 0 t + a • f s q ∈ Ω T := by
    intro t h s q a ht hh hT ha hah
    exact hΩ.mono (t + a) T (by linarith) (hΩ.move t a s _ q ht ha (hin t ⟨ht, by linarith⟩))
  -- the error of the stages
  have e2 : Ord T 2 fun t h => g 0 t + (h / 2) • g 1 t - g 0 (t + h / 2) :=
    ((((a2.smul (-1 / 8) 2).add ((a3.smul (-1 / 48) 3).mono (by norm_num))).add ((a4.smul (-1 / 384) 4).mono (by norm_num))).add
      ((rm.smul (-1) 0).mono (by norm_num))).congr (fun t h => by module)
  have q2 : Ord T 4 fun t h => k2 t h - g 1 (t + h / 2) - J (t + h / 2) (g 0 t + (h / 2) • g 1 t - g 0 (t + h / 2)) := by
    refine e2.sq (Q := Q) fun t h ht hh hT => ?_
    rw [hk2]
    refine hQ (t + h / 2) ⟨by linarith, by linarith⟩ _ ?_
    rw [hy t ⟨ht, by linarith⟩]
    exact reach t h _ _ _ ht hh hT (by linarith) (by linarith)
  have l2 := Jm.map e2
  have e3 : Ord T 2 fun t h => g 0 t + (h / 2) • k2 t h - g 0 (t + h / 2) :=
    (((((((a2.smul (1 / 8) 2).add ((a3.smul (1 / 24) 3).mono (by norm_num))).add ((a4.smul (1 / 128) 4).mono (by norm_num))).add
      ((rm.smul (-1) 0).mono (by norm_num))).add ((sm.smul (1 / 2) 1).mono (by norm_num))).add ((l2.smul (1 / 2) 1).mono (by norm_num))).add
      ((q2.smul (1 / 2) 1).mono (by norm_num))).congr (fun t h => by module)
  have q3 : Ord T 4 fun t h => k3 t h - g 1 (t + h / 2) - J (t + h / 2) (g 0 t + (h / 2) • k2 t h - g 0 (t + h / 2)) := by
    refine e3.sq (Q := Q) fun t h ht hh hT => ?_
    rw [hk3]
    refine hQ (t + h / 2) ⟨by linarith, by linarith⟩ _ ?_
    rw [hk2]
    exact reach t h _ _ _ ht hh hT (by linarith) (by linarith)
  have l3 := Jm.map e3
  have e4 : Ord T 3 fun t h => g 0 t + h • k3 t h - g 0 (t + h) :=
    ((((((a3.smul (-1 / 24) 3).add ((a4.smul (-1 / 48) 4).mono (by norm_num))).add
      ((r1.smul (-1) 0).mono (by norm_num))).add ((sm.smul 1 1).mono (by norm_num))).add (l3.smul 1 1)).add
      ((q3.smul 1 1).mono (by norm_num))).congr (fun t h => by module)
  have q4 : Ord T 4 fun t h => k4 t h - g 1 (t + h) - J (t + h) (g 0 t + h • k3 t h - g 0 (t + h)) := by
    refine Ord.mono (e4.sq (Q := Q) fun t h ht hh hT => ?_) (by norm_num)
    rw [hk4]
    refine hQ (t + h) ⟨by linarith, by linarith⟩ _ ?_
    rw [hk3]
    exact reach t h _ _ _ ht hh hT hh le_rfl
  -- the errors of the stages cancel
  have u : Ord T 3 fun t h => (g 0 t + (h / 2) • g 1 t - g 0 (t + h / 2)) + (g 0 t + (h / 2) • k2 t h - g 0 (t + h / 2)) :=
    ((((((a3.smul (1 / 48) 3).add ((a4.smul (1 / 192) 4).mono (by norm_num))).add
      ((rm.smul (-2) 0).mono (by norm_num))).add ((sm.smul (1 / 2) 1).mono (by norm_num))).add (l2.smul (1 / 2) 1)).add
      ((q2.smul (1 / 2) 1).mono (by norm_num))).congr (fun t h => by module)
  have lu := Jm.map u
  have w : Ord T 4 fun t h => (2 : ℝ) • ((g 0 t + (h / 2) • g 1 t - g 0 (t + h / 2)) + (g 0 t + (h / 2) • k2 t h - g 0 (t + h / 2))) +
      (g 0 t + h • k3 t h - g 0 (t + h)) :=
    (((((((a4.smul (-1 / 96) 4).add ((rm.smul (-4) 0).mono (by norm_num))).add ((r1.smul (-1) 0).mono (by norm_num))).add
      ((sm.smul 2 1).mono (by norm_num))).add (lu.smul 1 1)).add ((q2.smul 1 1).mono (by norm_num))).add
      ((q3.smul 1 1).mono (by norm_num))).congr (fun t h => by
        rw [map_add]
        module)
  have lw := Jm.map w
  have le := J1.map e4
  obtain ⟨C, hC, hfin⟩ : Ord T 5 fun t h => g 0 t + (h / 6) • g 1 t + (h / 3) • k2 t h + (h / 3) • k3 t h + (h / 6) • k4 t h - g 0 (t + h) :=
    ((((((((r1.smul (-1) 0)).add (sm.smul (2 / 3) 1)).add (s1.smul (1 / 6) 1)).add (lw.smul (1 / 6) 1)).add (le.smul (1 / 6) 1)).add
      (q2.smul (1 / 3) 1)).add ((q3.smul (1 / 3) 1).add (q4.smul (1 / 6) 1))).congr (fun t h => by
        simp only [map_add, map_smul, ContinuousLinearMap.sub_apply]
        module)
  exact ⟨C, hC, fun t h ht hh hT => by
    show ‖rk4 f t h (g 0 t) - g 0 (t + h)‖ ≤ _
    rw [hrk t h ht hh hT]
    exact hfin t h ht hh hT⟩

/-- Nearby points stay nearby. -/
theorem rk4_stable {f : ℝ → E → E} {Ω : ℝ → Set E} {Λ : ℝ} (hΩ : Reach f T Ω) (hΛ : 0 ≤ Λ)
    (hf : ∀ t ∈ Icc 0 T, ∀ p ∈ Ω T, ∀ q ∈ Ω T, ‖f t p - f t q‖ ≤ Λ * ‖p - q‖) {t h : ℝ} (ht : 0 ≤ t) (hh : 0 ≤ h) (hT : t + h ≤ T) {p q : E}
    (hp : p ∈ Ω t) (hq : q ∈ Ω t) : ‖rk4 f t h p - rk4 f t h q‖ ≤ (1 + Λ * (1 + Λ * T) ^ 3 * h) * ‖p - q‖ := by
  have hT0 : 0 ≤ T := by linarith
  have reach : ∀ s r a p, p ∈ Ω t → 0 ≤ a → a ≤ h → p + a • f s r ∈ Ω T := fun s r a p hp ha hah =>
    hΩ.mono (t + a) T (by linarith) (hΩ.move t a s _ r ht ha hp)
  have sub : Ω t ⊆ Ω T := hΩ.mono t T (by linarith)
  have stage : ∀ s a r r', s ∈ Icc 0 T → 0 ≤ a → a ≤ h → ∀ m : ℕ, ‖r - r'‖ ≤ Λ * (1 + Λ * T) ^ m * ‖p - q‖ → p + a • r ∈ Ω T → q + a • r' ∈ Ω T →
      ‖f s (p + a • r) - f s (q + a • r')‖ ≤ Λ * (1 + Λ * T) ^ (m + 1) * ‖p - q‖ := by
    intro s a r r' hs ha hah m hr h1 h2
    have h3 : ‖(p + a • r) - (q + a • r')‖ ≤ ‖p - q‖ + T * (Λ * (1 + Λ * T) ^ m * ‖p - q‖) := by
      rw [show (p + a • r) - (q + a • r') = (p - q) + a • (r - r') by module]
      refine (norm_add_le _ _).trans (add_le_add le_rfl ?_)
      rw [norm_smul, Real.norm_eq_abs, abs_of_nonneg ha]
      exact mul_le_mul (by linarith) hr (norm_nonneg _) hT0
    have h4 : (1 : ℝ) ≤ (1 + Λ * T) ^ m := one_le_pow₀ (by nlinarith)
    calc _ ≤ Λ * ‖(p + a • r) - (q + a • r')‖ := hf s hs _ h1 _ h2
      _ ≤ Λ * (‖p - q‖ + T * (Λ * (1 + Λ * T) ^ m * ‖p - q‖)) := mul_le_mul_of_nonneg_left h3 hΛ
      _ ≤ Λ * ((1 + Λ * T) ^ m * ‖p - q‖ + T * (Λ * (1 + Λ * T) ^ m * ‖p - q‖)) := by
        refine mul_le_mul_of_nonneg_left (add_le_add (le_mul_of_one_le_left (norm_nonneg _) h4) le_rfl) hΛ
      _ = _ := by ring
  have hm : t + h / 2 ∈ Icc 0 T := ⟨by linarith, by linarith⟩
  have h1 : ‖f t p - f t q‖ ≤ Λ * (1 + Λ * T) ^ 0 * ‖p - q‖ := by
    rw [pow_zero, mul_one]
    exact hf t ⟨ht, by linarith⟩ p (sub hp) q (sub hq)
  have h2 := stage (t + h / 2) (h / 2) _ _ hm (by linarith) (by linarith) 0 h1 (reach _ _ _ _ hp (by linarith) (by linarith))
    (reach _ _ _ _ hq (by linarith) (by linarith))
  have h3 := stage (t + h / 2) (h / 2) _ _ hm (by linarith) (by linarith) 1 h2 (reach _ _ _ _ hp (by linarith) (by linarith))
    (reach _ _ _ _ hq (by linarith) (by linarith))
  have h4 := stage (t + h) h _ _ ⟨by linarith, hT⟩ hh le_rfl 2 h3 (reach _ _ _ _ hp hh le_rfl) (reach _ _ _ _ hq hh le_rfl)
  have up : ∀ m ≤ 3, Λ * (1 + Λ * T) ^ m * ‖p - q‖ ≤ Λ * (1 + Λ * T) ^ 3 * ‖p - q‖ := fun m hm =>
    mul_le_mul_of_nonneg_right (mul_le_mul_of_nonneg_left (pow_le_pow_right₀ (by nlinarith) hm) hΛ) (norm_nonneg _)
  have g1 := h1.trans (up 0 (by norm_num))
  have g2 := h2.trans (up 1 (by norm_num))
  have g3 := h3.trans (up 2 (by norm_num))
  have part : ∀ (a : ℝ) (r : E) (B : ℝ), 0 ≤ a → ‖r‖ ≤ B → ‖a • r‖ ≤ a * B := by
    intro a r B ha hr
    rw [norm_smul, Real.norm_eq_abs, abs_of_nonneg ha]
    exact mul_le_mul_of_nonneg_left hr ha
  have s1 := part (h / 6) _ _ (by linarith) g1
  have s2 := part (h / 3) _ _ (by linarith) g2
  have s3 := part (h / 3) _ _ (by linarith) g3
  have s4 := part (h / 6) _ _ (by linarith) h4
  unfold rk4
  dsimp only
  generalize f t p = a1 at *
  generalize f t q = b1 at *
  generalize f (t + h / 2) (p + (h / 2) • a1) = a2 at *
  generalize f (t + h / 2) (q + (h / 2) • b1) = b2 at *
  generalize f (t + h / 2) (p + (h / 2) • a2) = a3 at *
  generalize f (t + h / 2) (q + (h / 2) • b2) = b3 at *
  generalize f (t + h) (p + h • a3) = a4 at *
  generalize f (t + h) (q + h • b3) = b4 at *
  rw [show p + (h / 6) • a1 + (h / 3) • a2 + (h / 3) • a3 + (h / 6) • a4 - (q + (h / 6) • b1 + (h / 3) • b2 + (h / 3) • b3 + (h / 6) • b4) =
    (p - q) + (h / 6) • (a1 - b1) + (h / 3) • (a2 - b2) + (h / 3) • (a3 - b3) + (h / 6) • (a4 - b4) by module]
  have t1 := norm_add_le (p - q) ((h / 6) • (a1 - b1))
  have t2 := norm_add_le ((p - q) + (h / 6) • (a1 - b1)) ((h / 3) • (a2 - b2))
  have t3 := norm_add_le ((p - q) + (h / 6) • (a1 - b1) + (h / 3) • (a2 - b2)) ((h / 3) • (a3 - b3))
  have t4 := norm_add_le ((p - q) + (h / 6) • (a1 - b1) + (h / 3) • (a2 - b2) + (h / 3) • (a3 - b3)) ((h / 6) • (a4 - b4))
  linarith

/-! ### The midpoint rule -/

/-- The exact solution satisfies the midpoint rule up to third order. -/
theorem midpoint_local {f : ℝ → E → E} {Ω : Set E} {Λ : ℝ} (hΛ : 0 ≤ Λ) (hg : Curve T 2 g)
    (hy : ∀ t ∈ Icc 0 T, g 1 t = f t (g 0 t)) (hin : ∀ t ∈ Icc 0 T, g 0 t ∈ Ω) (hconv : Convex ℝ Ω)
    (hf : ∀ t ∈ Icc 0 T, ∀ p ∈ Ω, ∀ q ∈ Ω, ‖f t p - f t q‖ ≤ Λ * ‖p - q‖) :
    Ord T 3 fun t h => g 0 (t + h) - g 0 t - h • f (t + h / 2) ((1 / 2 : ℝ) • (g 0 t + g 0 (t + h))) := by
  have rm := hg.taylor (a := 1 / 2) (by norm_num) (by norm_num)
  have r1 := hg.taylor (a := 1) (by norm_num) (by norm_num)
  have sm := hg.tail.taylor (a := 1 / 2) (by norm_num) (by norm_num)
  have a2 := hg.ord (k := 2) (by norm_num)
  simp only [sum_range_succ, sum_range_zero, Nat.factorial, zero_add, one_mul, pow_zero, pow_one, Nat.cast_one, div_one, one_smul] at rm r1 sm
  norm_num at rm r1 sm
  simp only [show ∀ h : ℝ, 1 / 2 * h = h / 2 from fun h => by ring] at rm sm
  have d : Ord T 2 fun t h => (1 / 2 : ℝ) • (g 0 t + g 0 (t + h)) - g 0 (t + h / 2) :=
    (((a2.smul (1 / 8) 2).add ((r1.smul (1 / 2) 0).mono (by norm_num))).add ((rm.smul (-1) 0).mono (by norm_num))).congr (fun t h => by module)
  have q : Ord T 2 fun t h => f (t + h / 2) ((1 / 2 : ℝ) • (g 0 t + g 0 (t + h))) - g 1 (t + h / 2) := by
    obtain ⟨C, hC, h1⟩ := d
    refine ⟨Λ * C, by positivity, fun t h ht hh hT => ?_⟩
    have hm : t + h / 2 ∈ Icc 0 T := ⟨by linarith, by linarith⟩
    have hmean : (1 / 2 : ℝ) • (g 0 t + g 0 (t + h)) ∈ Ω := by
      rw [smul_add]
      exact hconv (hin t ⟨ht, by linarith⟩) (hin (t + h) ⟨by linarith, hT⟩) (by norm_num) (by norm_num) (by norm_num)
    show ‖f (t + h / 2) ((1 / 2 : ℝ) • (g 0 t + g 0 (t + h))) - g 1 (t + h / 2)‖ ≤ _
    rw [hy _ hm]
    refine (hf _ hm _ hmean _ (hin _ hm)).trans ?_
    rw [mul_assoc]
    exact mul_le_mul_of_nonneg_left (h1 t h ht hh hT) hΛ
  exact ((r1.add (sm.smul (-1) 1)).add (q.smul (-1) 1)).congr (fun t h => by module)

/-- A method that satisfies the midpoint rule up to third order, compared with a curve that does. -/
theorem midpoint_step {f : ℝ → E → E} {s h Λ A B C δ : ℝ} {p q p' q' : E} (hΛ : 0 ≤ Λ) (hh : 0 ≤ h) (hA : 0 ≤ A) (hB : 0 ≤ B)
    (hf : ‖f s ((1 / 2 : ℝ) • (p + p')) - f s ((1 / 2 : ℝ) • (q + q'))‖ ≤ Λ * ‖(1 / 2 : ℝ) • (p + p') - (1 / 2 : ℝ) • (q + q')‖)
    (hp : ‖p' - p - h • f s ((1 / 2 : ℝ) • (p + p'))‖ ≤ A * h ^ 3) (hq : ‖q' - q - h • f s ((1 / 2 : ℝ) • (q + q'))‖ ≤ B * h ^ 3)
    (hp' : ‖p' - p‖ ≤ C * h) (hq' : ‖q' - q‖ ≤ C * h) (hδ : ‖p - q‖ ≤ δ) :
    ‖p' - q'‖ ≤ (1 + 2 * Λ * h) * δ + (2 * (A + B) + 2 * C * Λ ^ 2) * h ^ 3 := by
  have hδ0 := (norm_nonneg _).trans hδ
  have hC : 0 ≤ C * h := (norm_nonneg _).trans hp'
  rcases le_or_gt (Λ * h) 1 with h1 | h1
  · have h2 : ‖p' - q'‖ ≤ δ + h * (Λ * ((1 / 2) * (δ + ‖p' - q'‖))) + A * h ^ 3 + B * h ^ 3 := by
      have h3 : ‖h • (f s ((1 / 2 : ℝ) • (p + p')) - f s ((1 / 2 : ℝ) • (q + q')))‖ ≤ h * (Λ * ((1 / 2) * (δ + ‖p' - q'‖))) := by
        rw [norm_smul, Real.norm_eq_abs, abs_of_nonneg hh]
        refine mul_le_mul_of_nonneg_left (hf.trans (mul_le_mul_of_nonneg_left ?_ hΛ)) hh
        rw [← smul_sub, norm_smul, Real.norm_eq_abs, abs_of_nonneg (by norm_num : (0 : ℝ) ≤ 1 / 2)]
        refine mul_le_mul_of_nonneg_left ?_ (by norm_num)
        rw [show p + p' - (q + q') = (p - q) + (p' - q') by module]
        exact (norm_add_le _ _).trans (add_le_add hδ le_rfl)
      have h4 : p' - q' = (p - q) + h • (f s ((1 / 2 : ℝ) • (p + p')) - f s ((1 / 2 : ℝ) • (q + q'))) +
          (p' - p - h • f s ((1 / 2 : ℝ) • (p + p'))) - (q' - q - h • f s ((1 / 2 : ℝ) • (q + q'))) := by module
      calc ‖p' - q'‖ ≤ _ := by
            rw [h4]
            exact (norm_sub_le _ _).trans (add_le_add (norm_add₃_le) le_rfl)
        _ ≤ _ := add_le_add (add_le_add (add_le_add hδ h3) hp) hq
    generalize ‖p' - q'‖ = e at *
    -- `e (1 - x) ≤ δ (1 + x) + R` with `x = Λ h / 2 ≤ 1 / 2`
    have hx0 : 0 ≤ Λ * h := by positivity
    have h5 : e * (1 - Λ * h / 2) ≤ δ * (1 + Λ * h / 2) + (A + B) * h ^ 3 := by linarith
    have hR : 0 ≤ (A + B) * h ^ 3 := by positivity
    have hR' : 0 ≤ 2 * C * Λ ^ 2 * h ^ 3 := by
      have : 2 * C * Λ ^ 2 * h ^ 3 = 2 * (C * h) * (Λ * h) ^ 2 := by ring
      rw [this]
      positivity
    have h6 : δ * (1 + Λ * h / 2) + (A + B) * h ^ 3 ≤ ((1 + 2 * Λ * h) * δ + 2 * ((A + B) * h ^ 3)) * (1 - Λ * h / 2) := by
      rw [show 2 * Λ * h = 2 * (Λ * h) by ring]
      generalize Λ * h = x at *
      have h7 : 0 ≤ δ * (x * (1 - x)) := mul_nonneg hδ0 (mul_nonneg hx0 (by linarith))
      have h8 : 0 ≤ (A + B) * h ^ 3 * (1 - x) := mul_nonneg hR (by linarith)
      nlinarith
    have h9 : e ≤ (1 + 2 * Λ * h) * δ + 2 * ((A + B) * h ^ 3) := le_of_mul_le_mul_right (h5.trans h6) (by linarith)
    linarith
  · have h2 : p' - q' = (p - q) + (p' - p) - (q' - q) := by module
    have h3 : ‖p' - q'‖ ≤ δ + C * h + C * h := by
      rw [h2]
      exact (norm_sub_le _ _).trans (add_le_add ((norm_add_le _ _).trans (add_le_add hδ hp')) hq')
    have h4 : C * h ≤ C * h * (Λ * h) ^ 2 := le_mul_of_one_le_right hC (one_le_pow₀ h1.le)
    have h5 : 0 ≤ 2 * Λ * h * δ := by positivity
    have h6 : 0 ≤ 2 * (A + B) * h ^ 3 := by positivity
    linarith

/-! ### Accumulated errors -/

/-- The accumulated error at the time `t` with steps up to `D`, for a method of order `m`. -/
noncomputable def err (C Γ D : ℝ) (m : ℕ) (t : ℝ) : ℝ := C * D ^ m * t * Real.exp (Γ * t)

theorem err_zero {C Γ D : ℝ} : err C Γ D m 0 = 0 := by
  simp [err]

theorem err_nonneg {C Γ D t : ℝ} (hC : 0 ≤ C) (hD : 0 ≤ D) (ht : 0 ≤ t) : 0 ≤ err C Γ D m t := by
  unfold err
  positivity

theorem err_le {C Γ D t : ℝ} (hC : 0 ≤ C) (hΓ : 0 ≤ Γ) (hD : 0 ≤ D) (ht : 0 ≤ t) (hT : t ≤ T) :
    err C Γ D m t ≤ C * T * Real.exp (Γ * T) * D ^ m := by
  unfold err
  have h1 : Real.exp (Γ * t) ≤ Real.exp (Γ * T) := Real.exp_le_exp.2 (mul_le_mul_of_nonneg_left hT hΓ)
  calc C * D ^ m * t * Real.exp (Γ * t) ≤ C * D ^ m * T * Real.exp (Γ * T) :=
        mul_le_mul (mul_le_mul_of_nonneg_left hT (by positivity)) h1 (by positivity) (by
          have := ht.trans hT
          positivity)
    _ = _ := by ring

theorem err_step {C Γ D t h : ℝ} (hC : 0 ≤ C) (hΓ : 0 ≤ Γ) (ht : 0 ≤ t) (hh : 0 ≤ h) (hD : h ≤ D) :
    (1 + Γ * h) * err C Γ D m t + C * h ^ (m + 1) ≤ err C Γ D m (t + h) := by
  unfold err
  have hD0 : 0 ≤ D := hh.trans hD
  have h1 : 1 + Γ * h ≤ Real.exp (Γ * h) := by linarith [Real.add_one_le_exp (Γ * h)]
  have h2 : Real.exp (Γ * (t + h)) = Real.exp (Γ * h) * Real.exp (Γ * t) := by
    rw [← Real.exp_add]
    congr 1
    ring
  have h3 : 1 ≤ Real.exp (Γ * (t + h)) := Real.one_le_exp (by positivity)
  have h4 : h ^ m ≤ D ^ m := pow_le_pow_left₀ hh hD m
  calc (1 + Γ * h) * (C * D ^ m * t * Real.exp (Γ * t)) + C * h ^ (m + 1)
      ≤ Real.exp (Γ * h) * (C * D ^ m * t * Real.exp (Γ * t)) + C * D ^ m * h * Real.exp (Γ * (t + h)) := by
        refine add_le_add (mul_le_mul_of_nonneg_right h1 (by positivity)) ?_
        calc C * h ^ (m + 1) = C * h ^ m * h * 1 := by ring
          _ ≤ C * D ^ m * h * Real.exp (Γ * (t + h)) :=
            mul_le_mul (mul_le_mul_of_nonneg_right (mul_le_mul_of_nonneg_left h4 hC) hh) h3 zero_le_one (by positivity)
    _ = C * D ^ m * (t + h) * Real.exp (Γ * (t + h)) := by
        rw [h2]
        ring

/-! ### Smooth equations -/

/-- A continuously differentiable function is Lipschitz on balls. -/
theorem lip_on_ball {G H : Type*} [NormedAddCommGroup G] [NormedSpace ℝ G] [ProperSpace G] [NormedAddCommGroup H] [NormedSpace ℝ H] {Φ : G → H}
    (hΦ : ContDiff ℝ 1 Φ) (R : ℝ) : ∃ L, 0 ≤ L ∧ ∀ p q, ‖p‖ ≤ R → ‖q‖ ≤ R → ‖Φ p - Φ q‖ ≤ L * ‖p - q‖ := by
  obtain ⟨C, hC⟩ := (isCompact_closedBall (0 : G) R).exists_bound_of_continuousOn (hΦ.continuous_fderiv one_ne_zero).continuousOn
  refine ⟨|C|, abs_nonneg C, fun p q hp hq => ?_⟩
  refine Convex.norm_image_sub_le_of_norm_fderiv_le (𝕜 := ℝ) (s := Metric.closedBall 0 R) (fun x _ => hΦ.differentiable one_ne_zero x)
    (fun x hx => (hC x hx).trans (le_abs_self C)) (convex_closedBall 0 R) ?_ ?_
  · rwa [mem_closedBall_zero_iff]
  · rwa [mem_closedBall_zero_iff]

/-- A solution of a smooth equation is one degree smoother. -/
theorem curve_of_flow {Ψ : ℝ × E → E} {y : ℝ → E} {n : ℕ} (hΨ : ContDiff ℝ n Ψ) (hT : 0 < T)
    (hy : ∀ t ∈ Icc 0 T, HasDerivWithinAt y (Ψ (t, y t)) (Icc 0 T) t) :
    ∃ g : ℕ → ℝ → E, g 0 = y ∧ Curve T n g ∧ ∀ t ∈ Icc 0 T, g 1 t = Ψ (t, y t) := by
  have hu : UniqueDiffOn ℝ (Icc 0 T) := uniqueDiffOn_Icc hT
  have hd : ∀ t ∈ Icc 0 T, derivWithin y (Icc 0 T) t = Ψ (t, y t) := fun t ht => (hy t ht).derivWithin (hu t ht)
  have hdiff : DifferentiableOn ℝ y (Icc 0 T) := fun t ht => (hy t ht).differentiableWithinAt
  have hreg : ∀ m : ℕ, m ≤ n + 1 → ContDiffOn ℝ m y (Icc 0 T) := by
    intro m
    induction m with
    | zero => exact fun _ => contDiffOn_zero.2 hdiff.continuousOn
    | succ m ih =>
      intro hm
      have h1 : ContDiffOn ℝ m (fun t => Ψ (t, y t)) (Icc 0 T) :=
        (hΨ.of_le (by exact_mod_cast (by omega : m ≤ n))).comp_contDiffOn (contDiffOn_id.prodMk (ih (by omega)))
      have h2 := (contDiffOn_succ_iff_derivWithin (𝕜 := ℝ) (n := (m : WithTop ℕ∞)) (f := y) hu).2
        ⟨hdiff, fun h => by simp at h, h1.congr fun t ht => hd t ht⟩
      exact_mod_cast h2
  have hder : ∀ k ≤ n, ∀ t ∈ Icc 0 T,
      HasDerivWithinAt (iteratedDerivWithin k y (Icc 0 T)) (iteratedDerivWithin (k + 1) y (Icc 0 T) t) (Icc 0 T) t := by
    intro k hk t ht
    rw [iteratedDerivWithin_succ]
    exact ((hreg (n + 1) le_rfl).differentiableOn_iteratedDerivWithin (by exact_mod_cast (by omega : k < n + 1)) hu t ht).hasDerivWithinAt
  refine ⟨fun k => iteratedDerivWithin k y (Icc 0 T), iteratedDerivWithin_zero, ⟨hT.le, fun k hk => hder k hk.le, ?_⟩, fun t ht => ?_⟩
  · obtain ⟨C, hC⟩ := isCompact_Icc.exists_bound_of_continuousOn ((hreg (n + 1) le_rfl).continuousOn_iteratedDerivWithin le_rfl hu)
    exact ⟨C, lip_of_deriv (hder n le_rfl) hC⟩
  · show iteratedDerivWithin 1 y (Icc 0 T) t = _
    rw [iteratedDerivWithin_one]
    exact hd t ht

/-- Linearisation of a smooth equation along a solution. -/
theorem linearise [ProperSpace E] {Ψ : ℝ × E → E} (hΨ : ContDiff ℝ 2 Ψ) (hg : Curve T 0 g) {Ω : Set E} {Λ : ℝ} (hΛ : 0 ≤ Λ)
    (hin : ∀ t ∈ Icc 0 T, g 0 t ∈ Ω) (hf : ∀ t ∈ Icc 0 T, ∀ p ∈ Ω, ∀ q ∈ Ω, ‖Ψ (t, p) - Ψ (t, q)‖ ≤ Λ * ‖p - q‖) :
    ∃ (J : ℝ → E →L[ℝ] E) (Q : ℝ), Curve T 0 (fun _ => J) ∧
      ∀ t ∈ Icc 0 T, ∀ p ∈ Ω, ‖Ψ (t, p) - Ψ (t, g 0 t) - J t (p - g 0 t)‖ ≤ Q * ‖p - g 0 t‖ ^ 2 := by
  obtain ⟨N, hN⟩ := hg.lip
  obtain ⟨B, hB0, hB⟩ := bounded_of_lip hg.T0 hN
  have hD : ContDiff ℝ 1 (fderiv ℝ Ψ) := hΨ.fderiv_right (by norm_num)
  obtain ⟨L, hL0, hL⟩ := lip_on_ball hD (max T (B + 1))
  set J : ℝ → E →L[ℝ] E := fun t => (fderiv ℝ Ψ (t, g 0 t)).comp (ContinuousLinearMap.inr ℝ ℝ E) with hJ
  have hinr : ‖ContinuousLinearMap.inr ℝ ℝ E‖ ≤ 1 := ContinuousLinearMap.opNorm_le_bound _ zero_le_one fun v => by
    rw [one_mul, ContinuousLinearMap.inr_apply, Prod.norm_mk, norm_zero]
    exact max_le (norm_nonneg v) le_rfl
  have hcomp : ∀ A A' : ℝ × E →L[ℝ] E, ‖A.comp (ContinuousLinearMap.inr ℝ ℝ E) - A'.comp (ContinuousLinearMap.inr ℝ ℝ E)‖ ≤ ‖A - A'‖ := by
    intro A A'
    rw [← ContinuousLinearMap.sub_comp]
    exact ((A - A').opNorm_comp_le _).trans (mul_le_of_le_one_right (norm_nonneg _) hinr)
  have hball : ∀ t ∈ Icc 0 T, ∀ p : E, ‖p‖ ≤ B + 1 → ‖(t, p)‖ ≤ max T (B + 1) := by
    intro t ht p hp
    rw [Prod.norm_mk, Real.norm_eq_abs, abs_of_nonneg ht.1]
    exact max_le_max ht.2 hp
  have hlip : ∀ s ∈ Icc 0 T, ∀ t ∈ Icc 0 T, ‖J t - J s‖ ≤ L * max 1 N * |t - s| := by
    intro s hs t ht
    refine (hcomp _ _).trans ((hL _ _ (hball t ht _ ((hB t ht).trans (by linarith))) (hball s hs _ ((hB s hs).trans (by linarith)))).trans ?_)
    rw [mul_assoc]
    refine mul_le_mul_of_nonneg_left ?_ hL0
    rw [Prod.mk_sub_mk, Prod.norm_mk, Real.norm_eq_abs]
    refine max_le ?_ ((hN s hs t ht).trans (mul_le_mul_of_nonneg_right (le_max_right _ _) (abs_nonneg _)))
    exact le_mul_of_one_le_left (abs_nonneg _) (le_max_left _ _)
  obtain ⟨K, hK0, hK⟩ := bounded_of_lip hg.T0 hlip
  refine ⟨J, L + Λ + K, ⟨hg.T0, fun k hk => absurd hk (by omega), _, hlip⟩, fun t ht p hp => ?_⟩
  have hsq := sq_nonneg ‖p - g 0 t‖
  rcases le_or_gt ‖p - g 0 t‖ 1 with h1 | h1
  · have key := Convex.norm_image_sub_le_of_norm_hasFDerivWithin_le' (𝕜 := ℝ) (f := fun q => Ψ (t, q))
      (f' := fun q => (fderiv ℝ Ψ (t, q)).comp (ContinuousLinearMap.inr ℝ ℝ E)) (φ := J t) (s := Metric.closedBall (g 0 t) ‖p - g 0 t‖)
      (C := L * ‖p - g 0 t‖) (x := g 0 t) (y := p) (fun q _ => ?_) (fun q hq => ?_) (convex_closedBall _ _)
      (Metric.mem_closedBall_self (norm_nonneg _)) (by rw [mem_closedBall_iff_norm])
    · refine key.trans ?_
      have : 0 ≤ (Λ + K) * ‖p - g 0 t‖ ^ 2 := mul_nonneg (by linarith) hsq
      nlinarith
    · have h2 : HasFDerivAt Ψ (fderiv ℝ Ψ (t, q)) (t, q) := (hΨ.differentiable two_ne_zero _).hasFDerivAt
      exact (h2.comp q (hasFDerivAt_prodMk_right t q)).hasFDerivWithinAt
    · rw [mem_closedBall_iff_norm] at hq
      have h3 : ‖q‖ ≤ B + 1 := by
        have h4 := norm_sub_norm_le q (g 0 t)
        have h5 := hB t ht
        linarith
      refine (hcomp _ _).trans ((hL _ _ (hball t ht _ h3) (hball t ht _ ((hB t ht).trans (by linarith)))).trans ?_)
      refine mul_le_mul_of_nonneg_left ?_ hL0
      rw [Prod.mk_sub_mk, Prod.norm_mk, sub_self, norm_zero]
      exact max_le (norm_nonneg _) hq
  · have h2 := hf t ht p hp _ (hin t ht)
    have h3 : ‖J t (p - g 0 t)‖ ≤ K * ‖p - g 0 t‖ := ((J t).le_opNorm _).trans (mul_le_mul_of_nonneg_right (hK t ht) (norm_nonneg _))
    have h4 := norm_sub_le (Ψ (t, p) - Ψ (t, g 0 t)) (J t (p - g 0 t))
    have h5 : ‖p - g 0 t‖ ≤ ‖p - g 0 t‖ ^ 2 := by nlinarith
    have h6 : (Λ + K) * ‖p - g 0 t‖ ≤ (Λ + K) * ‖p - g 0 t‖ ^ 2 := mul_le_mul_of_nonneg_left h5 (by linarith)
    have h7 : 0 ≤ L * ‖p - g 0 t‖ ^ 2 := by positivity
    linarith

end WakeT.Order
