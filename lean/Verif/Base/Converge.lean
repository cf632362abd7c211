import Verif.Base.AdamsBashforth
import Mathlib.Analysis.Calculus.BumpFunction.FiniteDimension

/-! # Convergence of the two integrators near a smooth solution

Facts on the numerical methods for `y' = f(t, y)`, which do not refer to the code.  The right-hand side need be smooth
only near the solution. -/

set_option linter.unusedSectionVars false

namespace WakeT.Order

open Set Finset Nat

variable {E : Type*} [NormedAddCommGroup E] [NormedSpace ℝ E] [FiniteDimensional ℝ E] {T : ℝ}

/-- A smooth function can be replaced by a bounded and Lipschitz one outside a ball. -/
theorem cutoff {G H : Type*} [NormedAddCommGroup G] [NormedSpace ℝ G] [FiniteDimensional ℝ G] [NormedAddCommGroup H] [NormedSpace ℝ H]
    {n : ℕ} {Ψ : G → H} (hΨ : ContDiff ℝ n Ψ) (hn : 1 ≤ n) (R : ℝ) :
    ∃ Φ : G → H, ContDiff ℝ n Φ ∧ (∀ p, ‖p‖ ≤ R → Φ p = Ψ p) ∧ (∃ B, 0 ≤ B ∧ ∀ p, ‖Φ p‖ ≤ B) ∧ ∃ Λ, 0 ≤ Λ ∧ ∀ p q, ‖Φ p - Φ q‖ ≤ Λ * ‖p - q‖ := by
  let b : ContDiffBump (0 : G) := ⟨|R| + 1, |R| + 2, by positivity, by linarith⟩
  have hsm : ContDiff ℝ n fun p => b p • Ψ p := b.contDiff.smul hΨ
  have hcs : HasCompactSupport fun p => b p • Ψ p := b.hasCompactSupport.smul_right
  refine ⟨fun p => b p • Ψ p, hsm, fun p hp => ?_, ?_, ?_⟩
  · have : p ∈ Metric.closedBall (0 : G) b.rIn := by
      rw [mem_closedBall_zero_iff]
      exact hp.trans ((le_abs_self R).trans (by show |R| ≤ |R| + 1; linarith))
    simp only [b.one_of_mem_closedBall this, one_smul]
  · obtain ⟨B, hB⟩ := hcs.exists_bound_of_continuous hsm.continuous
    exact ⟨B, (norm_nonneg _).trans (hB 0), hB⟩
  · have h1 : ContDiff ℝ 1 fun p => b p • Ψ p := hsm.of_le (by exact_mod_cast hn)
    obtain ⟨K, hK⟩ := h1.lipschitzWith_of_hasCompactSupport hcs one_ne_zero
    exact ⟨K, K.2, fun p q => by rw [← dist_eq_norm, ← dist_eq_norm]; exact hK.dist_le_mul p q⟩

/-- The right-hand side `f` is smooth near the solution `y`. -/
structure SmoothNear (n : ℕ) (f : ℝ → E → E) (T δ : ℝ) (y : ℝ → E) : Prop where
  T0 : 0 < T
  δ0 : 0 < δ
  smooth : ∃ Ψ : ℝ × E → E, ContDiff ℝ n Ψ ∧ ∀ t ∈ Icc 0 T, ∀ p, ‖p - y t‖ ≤ δ → f t p = Ψ (t, p)
  solves : ∀ t ∈ Icc 0 T, HasDerivWithinAt y (f t (y t)) (Icc 0 T) t

/-- The solution as a smooth curve, with a bounded Lipschitz right-hand side. -/
theorem SmoothNear.data {n : ℕ} {f : ℝ → E → E} {δ : ℝ} {y : ℝ → E} (h : SmoothNear n f T δ y) (hn : 1 ≤ n) :
    ∃ (Φ : ℝ × E → E) (g : ℕ → ℝ → E) (B Λ : ℝ), ContDiff ℝ n Φ ∧ g 0 = y ∧ Curve T n g ∧ (∀ t ∈ Icc 0 T, g 1 t = Φ (t, y t)) ∧
      (∀ t ∈ Icc 0 T, ∀ p, ‖p - y t‖ ≤ δ → f t p = Φ (t, p)) ∧ 0 ≤ B ∧ (∀ p, ‖Φ p‖ ≤ B) ∧ 0 ≤ Λ ∧
      ∀ t p q, ‖Φ (t, p) - Φ (t, q)‖ ≤ Λ * ‖p - q‖ := by
  obtain ⟨Ψ, hΨ, hf⟩ := h.smooth
  have hc : ContinuousOn y (Icc 0 T) := fun t ht => (h.solves t ht).continuousWithinAt
  obtain ⟨R, hR⟩ := isCompact_Icc.exists_bound_of_continuousOn hc
  obtain ⟨Φ, hΦ, heq, ⟨B, hB0, hB⟩, Λ, hΛ0, hΛ⟩ := cutoff hΨ hn (max T (R + δ))
  have hfΦ : ∀ t ∈ Icc 0 T, ∀ p, ‖p - y t‖ ≤ δ → f t p = Φ (t, p) := by
    intro t ht p hp
    rw [hf t ht p hp, heq]
    rw [Prod.norm_mk]
    refine max_le_max ?_ ?_
    · rw [Real.norm_eq_abs, abs_of_nonneg ht.1]; exact ht.2
    · have := norm_add_le (p - y t) (y t)
      rw [sub_add_cancel] at this
      linarith [hR t ht]
  have hself : ∀ t, ‖y t - y t‖ ≤ δ := fun t => by rw [sub_self, norm_zero]; exact h.δ0.le
  obtain ⟨g, hg0, hg, hg1⟩ := curve_of_flow hΦ h.T0 (y := y) fun t ht => by
    rw [← hfΦ t ht _ (hself t)]; exact h.solves t ht
  refine ⟨Φ, g, B, Λ, hΦ, hg0, hg, hg1, hfΦ, hB0, hB, hΛ0, fun t p q => ?_⟩
  refine (hΛ _ _).trans (mul_le_mul_of_nonneg_left ?_ hΛ0)
  rw [Prod.mk_sub_mk, Prod.norm_mk, sub_self, norm_zero]
  exact max_le (norm_nonneg _) le_rfl

/-- Adams-Bashforth, from a solution that is at rest in the beginning. -/
theorem ab5_converges {f : ℝ → E → E} {δ t0 : ℝ} {y : ℝ → E} (h : SmoothNear 5 f T δ y) (ht0 : 0 < t0)
    (hrest : ∀ t ∈ Icc 0 T, t ≤ t0 → y t = y 0) :
    ∃ C h0, 0 ≤ C ∧ 0 < h0 ∧ ∀ h x, 0 < h → h ≤ h0 → IsRun f h x → x 0 = y 0 → ∀ n : ℕ, n * h ≤ T → ‖x n - y (n * h)‖ ≤ C * h ^ 5 := by
  obtain ⟨Φ, g, B, Λ, hΦ, rfl, hg, hg1, hfΦ, hB0, hB, hΛ0, hΛ⟩ := h.data (by norm_num)
  have hself : ∀ t, ‖g 0 t - g 0 t‖ ≤ δ := fun t => by rw [sub_self, norm_zero]; exact h.δ0.le
  exact ab5_global hg hΛ0 h.δ0 (fun t ht => by rw [hg1 t ht, hfΦ t ht _ (hself t)])
    (fun t ht p hp => by rw [hg1 t ht, hfΦ t ht p hp]; exact hΛ t _ _) ht0 hrest

/-- The classical Runge-Kutta method. -/
theorem rk4_converges {f : ℝ → E → E} {δ : ℝ} {y : ℝ → E} (h : SmoothNear 4 f T δ y) :
    ∃ C h0, 0 ≤ C ∧ 0 < h0 ∧ ∀ h (x : ℕ → E), 0 < h → h ≤ h0 → (∀ n : ℕ, x (n + 1) = rk4 f (n * h) h (x n)) → x 0 = y 0 →
      ∀ n : ℕ, n * h ≤ T → ‖x n - y (n * h)‖ ≤ C * h ^ 4 := by
  obtain ⟨Φ, g, B, Λ, hΦ, rfl, hg, hg1, hfΦ, hB0, hB, hΛ0, hΛ⟩ := h.data (by norm_num)
  have hT := h.T0
  have hδ := h.δ0
  set F : ℝ → E → E := fun t p => Φ (t, p) with hF
  have hΩ : Reach F T fun _ => univ := ⟨fun _ _ _ => subset_rfl, fun _ _ _ _ _ _ _ _ => mem_univ _⟩
  have hlip : ∀ t ∈ Icc 0 T, ∀ p ∈ (univ : Set E), ∀ q ∈ (univ : Set E), ‖F t p - F t q‖ ≤ Λ * ‖p - q‖ := fun t _ p _ q _ => hΛ t p q
  obtain ⟨J, Q, hJ, hQ⟩ := linearise (hΦ.of_le (by norm_num)) (hg.le (by norm_num : 0 ≤ 4)) hΛ0 (fun _ _ => mem_univ _) hlip
  obtain ⟨K, hK0, hK⟩ := rk4_local hΩ hg (fun t ht => hg1 t ht) (fun _ _ => mem_univ _) hJ (Q := Q) (fun t ht p hp => by
    rw [hg1 t ht]; exact hQ t ht p hp)
  set Γ := Λ * (1 + Λ * T) ^ 3 with hΓd
  have hΓ : 0 ≤ Γ := by positivity
  set C := K * T * Real.exp (Γ * T) with hC
  have hC0 : 0 ≤ C := by positivity
  refine ⟨C, min (δ / (4 * B + 1)) (min 1 (δ / (2 * C + 1))), hC0, by positivity, fun h x hh hh0 hx hx0 n hn => ?_⟩
  have h1 : h ≤ 1 := hh0.trans ((min_le_right _ _).trans (min_le_left _ _))
  have hBδ : 4 * (B * h) ≤ δ := by
    have h2 : h ≤ δ / (4 * B + 1) := hh0.trans (min_le_left _ _)
    rw [le_div_iff₀ (by positivity)] at h2
    nlinarith
  have hCδ : C * h ^ 4 ≤ δ / 2 := by
    have h2 : h ≤ δ / (2 * C + 1) := hh0.trans ((min_le_right _ _).trans (min_le_right _ _))
    rw [le_div_iff₀ (by positivity)] at h2
    have h3 : h ^ 4 ≤ h := pow_le_of_le_one hh.le h1 (by norm_num)
    nlinarith
  have hglip : ∀ s ∈ Icc 0 T, ∀ t ∈ Icc 0 T, ‖g 0 t - g 0 s‖ ≤ B * |t - s| := by
    refine lip_of_deriv (fun t ht => hg.deriv 0 (by norm_num) t ht) fun t ht => ?_
    rw [zero_add, hg1 t ht]; exact hB _
  have hstage : ∀ s ∈ Icc 0 T, ∀ t ∈ Icc 0 T, |t - s| ≤ h → ∀ p a k, ‖p - g 0 s‖ ≤ δ / 2 → 0 ≤ a → a ≤ h → ‖k‖ ≤ B →
      f t (p + a • k) = F t (p + a • k) := by
    intro s hs t ht hts p a k hp ha hah hk
    refine hfΦ t ht _ ?_
    rw [show p + a • k - g 0 t = (p - g 0 s) + a • k - (g 0 t - g 0 s) by module]
    have t1 := norm_sub_le ((p - g 0 s) + a • k) (g 0 t - g 0 s)
    have t2 := norm_add_le (p - g 0 s) (a • k)
    have t3 : ‖a • k‖ ≤ B * h := by
      rw [norm_smul, Real.norm_eq_abs, abs_of_nonneg ha, mul_comm]
      exact mul_le_mul hk hah ha hB0
    have t4 := (hglip s hs t ht).trans (mul_le_mul_of_nonneg_left hts hB0)
    linarith
  have hsame : ∀ t, 0 ≤ t → t + h ≤ T → ∀ p, ‖p - g 0 t‖ ≤ δ / 2 → rk4 f t h p = rk4 F t h p := by
    intro t ht htT p hp
    have m0 : t ∈ Icc 0 T := ⟨ht, by linarith⟩
    have m1 : t + h / 2 ∈ Icc 0 T := ⟨by linarith, by linarith⟩
    have m2 : t + h ∈ Icc 0 T := ⟨by linarith, htT⟩
    have d1 : |t + h / 2 - t| ≤ h := by rw [add_sub_cancel_left, abs_of_pos (by linarith)]; linarith
    have d2 : |t + h - t| ≤ h := by rw [add_sub_cancel_left, abs_of_pos hh]
    have k1 : f t p = F t p := by
      have := hstage t m0 t m0 (by rw [sub_self, abs_zero]; exact hh.le) p 0 0 hp le_rfl hh.le (by rw [norm_zero]; exact hB0)
      simpa using this
    have b2 : h / 2 ≤ h := by linarith
    have b1 : 0 ≤ h / 2 := by linarith
    unfold rk4
    simp only []
    rw [k1, hstage t m0 _ m1 d1 p (h / 2) _ hp b1 b2 (hB _), hstage t m0 _ m1 d1 p (h / 2) _ hp b1 b2 (hB _),
      hstage t m0 _ m2 d2 p h _ hp hh.le le_rfl (hB _)]
  have herr : ∀ t, 0 ≤ t → t ≤ T → err K Γ h 4 t ≤ C * h ^ 4 := fun t h0 h1 => err_le hK0 hΓ hh.le h0 h1
  have key : ∀ m : ℕ, m * h ≤ T → ‖x m - g 0 (m * h)‖ ≤ err K Γ h 4 (m * h) := by
    intro m
    induction m with
    | zero => intro _; rw [hx0, Nat.cast_zero, zero_mul, sub_self, norm_zero, err_zero]
    | succ m ih =>
      intro hm
      push_cast at hm ⊢
      have hm0 : 0 ≤ (m : ℝ) * h := by positivity
      have hmT : (m : ℝ) * h + h ≤ T := by linarith
      have hi := ih (by linarith)
      rw [hx m, hsame _ hm0 hmT _ (hi.trans ((herr _ hm0 (by linarith)).trans hCδ)), show ((m : ℝ) + 1) * h = m * h + h by ring]
      have s1 := rk4_stable hΩ hΛ0 hlip hm0 hh.le hmT (mem_univ (x m)) (mem_univ (g 0 (m * h)))
      have s2 : ‖rk4 F (m * h) h (g 0 (m * h)) - g 0 (m * h + h)‖ ≤ K * h ^ (4 + 1) := hK _ _ hm0 hh.le hmT
      refine le_trans ?_ (err_step (m := 4) hK0 hΓ hm0 hh.le (le_refl h))
      refine (norm_sub_le_norm_sub_add_norm_sub _ (rk4 F (m * h) h (g 0 (m * h))) _).trans (add_le_add (s1.trans ?_) s2)
      exact mul_le_mul_of_nonneg_left hi (by positivity)
  exact (key n hn).trans (herr _ (by positivity) hn)

end WakeT.Order
